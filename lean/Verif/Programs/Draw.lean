import Verif.Programs.DrawSum
import Verif.Programs.DrawSpec
import Verif.Programs.Counts
import Verif.Layout.Rest
import Verif.Layout.ArrangeBound
import Verif.Utils.Paths

/-!
# C164 (`netlayout`), C165 (`multinetlayout`)
-/

namespace PG

open RG UT
open GR (targets TotalNLinks)

/-! ## Random numbers -/

theorem draws_ok : ∀ (k : ℕ) (t : Tape) (r : List ℚ × Tape), draws k t = .ok r → r.1 = t.take k ∧ k ≤ t.length ∧ r.2 = t.drop k
  | 0, t, r, h => by
    cases h
    exact ⟨rfl, Nat.zero_le _, rfl⟩
  | k + 1, [], r, h => by simp [draws, draw] at h
  | k + 1, u :: t, r, h => by
    unfold draws at h
    simp only [draw] at h
    split_ifs at h with hu
    · simp only [Res.bind_ok] at h
      cases hd : draws k t with
      | ok q =>
        rw [hd] at h
        simp only [Res.bind_ok, Res.pure_eq, Res.ok.injEq] at h
        obtain ⟨h1, h2, h3⟩ := draws_ok k t q hd
        subst h
        exact ⟨by simp [h1], by simpa using h2, by simpa using h3⟩
      | starved => rw [hd] at h; simp at h
      | ub => rw [hd] at h; simp at h
    · simp at h

/-- Number `m` of the tape. -/
noncomputable def nth (t : Tape) (m : ℕ) : ℝ := ((t.getD m 0 : ℚ) : ℝ)

theorem coord_eq {k n : ℕ} {t : Tape} {r : List ℚ × Tape} (h : draws (k * n) t = .ok r) {d i : ℕ} (hd : d < k) (hi : i < n) :
    coord k r.1 d i = nth t (k * i + d) := by
  obtain ⟨h1, -, -⟩ := draws_ok _ _ _ h
  have : k * i + d < k * n := by
    calc k * i + d < k * i + k := by omega
      _ = k * (i + 1) := by ring
      _ ≤ k * n := Nat.mul_le_mul_left k hi
  unfold coord nth
  rw [h1, List.getD_eq_getElem?_getD, List.getD_eq_getElem?_getD, List.getElem?_take_of_lt this]

/-! ## Steps that returned -/

theorem bind_inv {α β : Type} {x : Res α} {f : α → Res β} {b : β} (h : (x >>= f) = .ok b) : ∃ a, x = .ok a ∧ f a = .ok b := by
  cases x with
  | ok a => exact ⟨a, rfl, h⟩
  | starved => simp at h
  | ub => simp at h

theorem ofOption_inv {α : Type} {x : Option α} {a : α} (h : Res.ofOption x = .ok a) : x = some a := by
  cases x with
  | none => simp [Res.ofOption] at h
  | some b => simp [Res.ofOption] at h; rw [h]

theorem i32_bound {n m : ℕ} (h : BFS.i32 (n * n) = some m) : n ≤ 46340 ∧ m = n * n := by
  unfold BFS.i32 at h
  split_ifs at h with h1
  refine ⟨?_, by simpa using h.symm⟩
  by_contra hc
  have : 46341 * 46341 ≤ n * n := Nat.mul_le_mul (by omega) (by omega)
  omega

section
variable {ps : List (String × String)} {net : GR.Net}

theorem numbered (L : Loaded ps net) : Numbered ps (toNet net) where
  simple := toNet_simple L
  n := L.len
  link i j a b ha hb := by
    have hi : i < net.n := by rw [L.len]; exact (List.getElem?_eq_some_iff.1 ha).1
    have hj : j < net.n := by rw [L.len]; exact (List.getElem?_eq_some_iff.1 hb).1
    rw [L.label_get hi] at ha
    rw [L.label_get hj] at hb
    obtain rfl := Option.some.inj ha
    obtain rfl := Option.some.inj hb
    rw [toNet_link L]
    classical exact if_congr (by simp [hi, hj]) rfl rfl

theorem finish_ok (L : Loaded ps net) (hn : 0 < net.n) (hb : net.n ≤ 46340) {jx jy u v x y : ℕ → ℝ} {t : Tape}
    (h : finish net jx jy u v t = .ok (x, y)) : LY.Unit01 net.n x x ∧ LY.Unit01 net.n y y ∧
      ∃ ax ay : ℝ, 0 < ax ∧ 0 < ay ∧ ∀ i < net.n, ∀ j < net.n, (graph ps).Reachable (net.label i) (net.label j) →
        x i - x j = ax * (u i - u j) ∧ y i - y j = ay * (v i - v j) := by
  unfold finish at h
  obtain ⟨⟨x1, y1⟩, h1, h⟩ := bind_inv h
  obtain ⟨⟨x2, y2, t2⟩, h2, h⟩ := bind_inv h
  simp only at h2 h
  have k1 := ofOption_inv h1
  have k := ofOption_inv h
  clear h1 h
  unfold LY.NormalizeCoordinates at k1 k
  simp only [Option.bind_eq_bind, Option.bind_eq_some_iff, Option.some.injEq, Prod.mk.injEq] at k1 k
  obtain ⟨x1', hx1, y1', hy1, e1, e1'⟩ := k1
  subst e1 e1'
  obtain ⟨x', hx, y', hy, e2, e2'⟩ := k
  subst e2 e2'
  have near := LY.arrange_near (targets net) net.n hn L.range L.simple.sym jx jy x1' y1' t
  rw [h2] at near
  obtain ⟨hrig, hnear⟩ := near
  simp only at hrig hnear
  obtain ⟨rx, a1, c1, pa1, ea1⟩ := LY.normalize_some hn hx1
  obtain ⟨ry, b1, d1, pb1, eb1⟩ := LY.normalize_some hn hy1
  have big : (1 : ℝ) + 4500 * 46340 ≤ 10 ^ 100 := by norm_num
  have hnr : (net.n : ℝ) ≤ 46340 := by exact_mod_cast hb
  have ux := LY.normalize_touch hn (u := x2) (by
    intro i hi
    have h3 := abs_le.1 (hnear i hi).1
    have h4 := rx i hi
    constructor <;> linarith [h3.1, h3.2]) hx
  have uy := LY.normalize_touch hn (u := y2) (by
    intro i hi
    have h3 := abs_le.1 (hnear i hi).2
    have h4 := ry i hi
    constructor <;> linarith [h3.1, h3.2]) hy
  refine ⟨ux.self, uy.self, ?_⟩
  obtain ⟨a2, c2, pa2, ea2⟩ := ux.affine
  obtain ⟨b2, d2, pb2, eb2⟩ := uy.affine
  refine ⟨a2 * a1, b2 * b1, mul_pos pa2 pa1, mul_pos pb2 pb1, ?_⟩
  intro i hi j hj hij
  obtain ⟨e1, e2⟩ := hrig i hi j hj ((L.reach_iff hi hj).2 hij)
  rw [ea2 i hi, ea2 j hj, eb2 i hi, eb2 j hj]
  have f1 : x2 i - x2 j = a1 * (u i - u j) := by rw [ea1 i hi, ea1 j hj] at e1; linarith
  have f2 : y2 i - y2 j = b1 * (v i - v j) := by rw [eb1 i hi, eb1 j hj] at e2; linarith
  constructor
  · calc _ = a2 * (x2 i - x2 j) := by ring
      _ = _ := by rw [f1]; ring
  · calc _ = b2 * (y2 i - y2 j) := by ring
      _ = _ := by rw [f2]; ring

theorem print_labels (L : Loaded ps net) (x y : ℕ → ℝ) : (PrintNodeCoordinates net x y).map (·.1) = names ps := by
  rw [← L.labels]
  simp [PrintNodeCoordinates]

theorem print_fills {x y : ℕ → ℝ} (hx : LY.Unit01 net.n x x) (hy : LY.Unit01 net.n y y) :
    Fills ((PrintNodeCoordinates net x y).map (·.2.1)) ∧ Fills ((PrintNodeCoordinates net x y).map (·.2.2)) := by
  have key : ∀ w : ℕ → ℝ, LY.Unit01 net.n w w → Fills ((List.range net.n).map w) := by
    intro w hw
    refine ⟨?_, ?_, ?_⟩
    · intro v hv
      obtain ⟨i, hi, rfl⟩ := List.mem_map.1 hv
      exact hw.range i (List.mem_range.1 hi)
    · obtain ⟨i, hi, e⟩ := hw.zero
      exact List.mem_map.2 ⟨i, List.mem_range.2 hi, e⟩
    · obtain ⟨i, hi, e⟩ := hw.one
      exact List.mem_map.2 ⟨i, List.mem_range.2 hi, e⟩
  unfold PrintNodeCoordinates
  rw [List.map_map, List.map_map]
  exact ⟨key x hx, key y hy⟩

theorem print_shows {x y u v : ℕ → ℝ} {R : String → String → Prop} {ax ay : ℝ} (pax : 0 < ax) (pay : 0 < ay)
    (h : ∀ i < net.n, ∀ j < net.n, R (net.label i) (net.label j) → x i - x j = ax * (u i - u j) ∧ y i - y j = ay * (v i - v j)) :
    Shows R (PrintNodeCoordinates net x y) u v := by
  refine ⟨ax, ay, pax, pay, ?_⟩
  intro i j p q hp hq hR
  unfold PrintNodeCoordinates at hp hq
  rw [List.getElem?_map] at hp hq
  obtain ⟨i', hi', rfl⟩ := Option.map_eq_some_iff.1 hp
  obtain ⟨j', hj', rfl⟩ := Option.map_eq_some_iff.1 hq
  obtain ⟨hi, e⟩ := List.getElem?_eq_some_iff.1 hi'
  obtain ⟨hj, e'⟩ := List.getElem?_eq_some_iff.1 hj'
  rw [List.getElem_range] at e e'
  subst e; subst e'
  rw [List.length_range] at hi hj
  exact h i hi j hj hR

theorem boxes_inv {b : ℕ} (L : Loaded ps net) (h : LY.boxesPerRow net.n (TotalNLinks net true).1 = some b) :
    LY.boxesPerRow (names ps).length (graph ps).edgeSet.ncard = some b ∧ net.n ≤ 46340 ∧ 0 < net.n := by
  rw [L.totalLinks.1, L.len] at h
  refine ⟨h, ?_⟩
  unfold LY.boxesPerRow at h
  simp only [Option.bind_eq_bind, Option.bind_eq_some_iff] at h
  obtain ⟨m, hm, h⟩ := h
  refine ⟨L.len ▸ (i32_bound hm).1, ?_⟩
  split_ifs at h with h0
  have : (graph ps).edgeSet.Nonempty := by
    by_contra hc
    rw [Set.not_nonempty_iff_eq_empty.1 hc] at h0
    simp at h0
  obtain ⟨e, he⟩ := this
  induction e with
  | _ a c =>
    obtain ⟨i, hi, -⟩ := L.node_of (adj_names ((SimpleGraph.mem_edgeSet _).1 he)).1
    omega

theorem boxes3_inv {b : ℕ} (L : Loaded ps net) (h : LY.boxesPerRow3 net.n (TotalNLinks net true).1 = some b) :
    LY.boxesPerRow3 (names ps).length (graph ps).edgeSet.ncard = some b ∧ net.n ≤ 46340 ∧ 0 < net.n := by
  rw [L.totalLinks.1, L.len] at h
  refine ⟨h, ?_⟩
  unfold LY.boxesPerRow3 at h
  simp only [Option.bind_eq_bind, Option.bind_eq_some_iff] at h
  obtain ⟨m, hm, h⟩ := h
  refine ⟨L.len ▸ (i32_bound hm).1, ?_⟩
  split_ifs at h with h0
  have : (graph ps).edgeSet.Nonempty := by
    by_contra hc
    rw [Set.not_nonempty_iff_eq_empty.1 hc] at h0
    simp at h0
  obtain ⟨e, he⟩ := this
  induction e with
  | _ a c =>
    obtain ⟨i, hi, -⟩ := L.node_of (adj_names ((SimpleGraph.mem_edgeSet _).1 he)).1
    omega

/-! ## C164, the layouts -/

theorem layout2D_ok (L : Loaded ps net) {drag dt : ℝ} {nsteps : ℕ} {jx jy x y : ℕ → ℝ} {t : Tape}
    (h : layout2D net drag dt nsteps jx jy t = .ok (x, y)) :
    LY.Unit01 net.n x x ∧ LY.Unit01 net.n y y ∧
      ∃ N b x0 y0 s0 s, Numbered ps N ∧ LY.boxesPerRow (names ps).length (graph ps).edgeSet.ncard = some b ∧
        (∀ i < N.n, x0 i = nth t (2 * i) ∧ y0 i = nth t (2 * i + 1)) ∧ LY.place b x0 y0 N.n = some s0 ∧
        LY.mdLoop N drag dt b nsteps s0 = some s ∧ Shows (graph ps).Reachable (PrintNodeCoordinates net x y) s.x s.y := by
  unfold layout2D at h
  obtain ⟨b, hb, h⟩ := bind_inv h
  obtain ⟨r, hr, h⟩ := bind_inv h
  obtain ⟨s0, e0, h⟩ := bind_inv h
  obtain ⟨s, e, h⟩ := bind_inv h
  obtain ⟨hb', hle, hpos⟩ := boxes_inv L (ofOption_inv hb)
  obtain ⟨h1, h2, ax, ay, p1, p2, h3⟩ := finish_ok L hpos hle h
  refine ⟨h1, h2, toNet net, b, _, _, s0, s, numbered L, hb', ?_, ofOption_inv e0, ofOption_inv e, print_shows p1 p2 h3⟩
  intro i hi
  exact ⟨coord_eq hr (by norm_num) hi, coord_eq hr (by norm_num) hi⟩

theorem layout2Dp_ok (L : Loaded ps net) {drag dt : ℝ} {nsteps : ℕ} {jx jy x y : ℕ → ℝ} {t : Tape}
    (h : layout2Dp net drag dt nsteps jx jy t = .ok (x, y)) :
    LY.Unit01 net.n x x ∧ LY.Unit01 net.n y y ∧
      ∃ (N : GP.Net) (b : ℕ) (r0 : LY.Pos) (s0 s : LY.MD3), Numbered ps N ∧
        LY.boxesPerRow3 (names ps).length (graph ps).edgeSet.ncard = some b ∧
        (∀ i < N.n, ∀ d : Fin 3, r0 d i = nth t (3 * i + d)) ∧ LY.place3 b r0 N.n = some s0 ∧
        LY.mdLoop2Dp N drag dt b nsteps 0 false s0 = some s ∧
        Shows (graph ps).Reachable (PrintNodeCoordinates net x y) (s.r 0) (s.r 1) := by
  unfold layout2Dp at h
  obtain ⟨b, hb, h⟩ := bind_inv h
  obtain ⟨r, hr, h⟩ := bind_inv h
  obtain ⟨s0, e0, h⟩ := bind_inv h
  obtain ⟨s, e, h⟩ := bind_inv h
  obtain ⟨hb', hle, hpos⟩ := boxes3_inv L (ofOption_inv hb)
  obtain ⟨h1, h2, ax, ay, p1, p2, h3⟩ := finish_ok L hpos hle h
  refine ⟨h1, h2, toNet net, b, _, s0, s, numbered L, hb', ?_, ofOption_inv e0, ofOption_inv e, print_shows p1 p2 h3⟩
  intro i hi d
  exact coord_eq hr d.2 hi

theorem layout3D_ok (L : Loaded ps net) {drag dt : ℝ} {nsteps : ℕ} {x y z : ℕ → ℝ} {t : Tape}
    (h : layout3D net drag dt nsteps t = .ok (x, y, z)) :
    0 < net.n ∧ (∀ i < net.n, (0 ≤ x i ∧ x i ≤ 1) ∧ 0 ≤ y i ∧ y i ≤ 1) ∧
      ∃ (N : GP.Net) (b : ℕ) (r0 : LY.Pos) (s0 s : LY.MD3), Numbered ps N ∧
        LY.boxesPerRow3 (names ps).length (graph ps).edgeSet.ncard = some b ∧
        (∀ i < N.n, ∀ d : Fin 3, r0 d i = nth t (3 * i + d)) ∧ LY.place3 b r0 N.n = some s0 ∧
        LY.mdLoop3 N drag dt b nsteps s0 = some s ∧
        Shows (fun _ _ => True) (PrintNodeCoordinates net x y) (s.r 0) (s.r 1) ∧
        ((∀ d i, i < N.n → |s.r d i| ≤ 10 ^ 100) → LY.Unit01 net.n x x ∧ LY.Unit01 net.n y y) := by
  unfold layout3D at h
  obtain ⟨b, hb, h⟩ := bind_inv h
  obtain ⟨r, hr, h⟩ := bind_inv h
  obtain ⟨hb', hle, hpos⟩ := boxes3_inv L (ofOption_inv hb)
  obtain ⟨s0, s, e0, e, hd⟩ := LY.C162_cube_partial (toNet net) drag dt nsteps b _ x y z hpos (ofOption_inv h)
  obtain ⟨⟨ax, cx, pax, eax⟩, rx, ux⟩ := hd 0
  obtain ⟨⟨ay, cy, pay, eay⟩, ry, uy⟩ := hd 1
  simp only [Matrix.cons_val_zero, Matrix.cons_val_one] at eax rx ux eay ry uy
  refine ⟨hpos, fun i hi => ⟨rx i hi, ry i hi⟩, toNet net, b, _, s0, s, numbered L, hb', ?_, e0, e, ?_, ?_⟩
  · intro i hi d
    exact coord_eq hr d.2 hi
  · refine print_shows pax pay fun i hi j hj _ => ?_
    rw [eax i hi, eax j hj, eay i hi, eay j hj]
    constructor <;> ring
  · intro hs
    exact ⟨(ux fun i hi => hs 0 i hi).self, (uy fun i hi => hs 1 i hi).self⟩

end

/-! ## C164 -/

section
variable {atoi : String → Int} {atof : String → ℚ} {jx jy : ℕ → ℝ} {files : String → Option (List Char)} {f seed step nsteps damp method : String}
  {more : List String} {text : List Char} {ps : List (String × String)} {t : Tape} {out : List (String × ℝ × ℝ)}

/-- C164, layout in two dimensions, the part that holds: if no NaN appears, `netlayout` prints one line for each label of the file, in order
of appearance; the coordinates are those of a drawing that fills the unit square; within each connected component it shows, up to the
units of the axes, the last state of the integration that starts at the random numbers, two for each label, with the graph of the
file and the step and damping of the command line. Missing: that there is an output. -/
theorem C164_plane_partial (hf : files f = some text) (hs : Says text ps) (hm : atoi method ≠ 3 ∧ atoi method ≠ 2)
    (h : netlayout atoi atof jx jy files (f :: seed :: step :: nsteps :: damp :: method :: more) t = .ok (some out)) :
    out.map (·.1) = names ps ∧ Fills (out.map (·.2.1)) ∧ Fills (out.map (·.2.2)) ∧
      ∃ N b x0 y0 s0 s, Numbered ps N ∧ LY.boxesPerRow (names ps).length (graph ps).edgeSet.ncard = some b ∧
        (∀ i < N.n, x0 i = nth t (2 * i) ∧ y0 i = nth t (2 * i + 1)) ∧ LY.place b x0 y0 N.n = some s0 ∧
        LY.mdLoop N (if atof damp < 0 then 1 / 20 else (atof damp : ℝ)) (if atof step < 0 then 1 / 20 else (atof step : ℝ)) b
          (atoi nsteps).toNat s0 = some s ∧ Shows (graph ps).Reachable out s.x s.y := by
  obtain ⟨net, e, L⟩ := load_ok hf hs
  have L' := L.totalLinks.2.2
  simp only [netlayout, e, Res.bind_ok, hm.1, hm.2, if_false] at h
  split_ifs at h with h0
  obtain ⟨⟨x, y⟩, h1, h2⟩ := bind_inv h
  simp only [Res.pure_eq, Res.ok.injEq, Option.some.injEq] at h2
  subst h2
  obtain ⟨u1, u2, h3⟩ := layout2D_ok L' h1
  obtain ⟨f1, f2⟩ := print_fills u1 u2
  exact ⟨print_labels L' x y, f1, f2, h3⟩

/-- C164, method 2: the same with the integration in three dimensions that is pulled to a plane. -/
theorem C164_pulled_partial (hf : files f = some text) (hs : Says text ps) (hm : atoi method = 2)
    (h : netlayout atoi atof jx jy files (f :: seed :: step :: nsteps :: damp :: method :: more) t = .ok (some out)) :
    out.map (·.1) = names ps ∧ Fills (out.map (·.2.1)) ∧ Fills (out.map (·.2.2)) ∧
      ∃ (N : GP.Net) (b : ℕ) (r0 : LY.Pos) (s0 s : LY.MD3), Numbered ps N ∧
        LY.boxesPerRow3 (names ps).length (graph ps).edgeSet.ncard = some b ∧
        (∀ i < N.n, ∀ d : Fin 3, r0 d i = nth t (3 * i + d)) ∧ LY.place3 b r0 N.n = some s0 ∧
        LY.mdLoop2Dp N (if atof damp < 0 then 1 / 20 else (atof damp : ℝ)) (if atof step < 0 then 1 / 20 else (atof step : ℝ)) b
          (atoi nsteps).toNat 0 false s0 = some s ∧ Shows (graph ps).Reachable out (s.r 0) (s.r 1) := by
  obtain ⟨net, e, L⟩ := load_ok hf hs
  have L' := L.totalLinks.2.2
  simp only [netlayout, e, Res.bind_ok, hm, if_true, show ((2 : Int) = 3) = False by simp, if_false] at h
  split_ifs at h with h0
  obtain ⟨⟨x, y⟩, h1, h2⟩ := bind_inv h
  simp only [Res.pure_eq, Res.ok.injEq, Option.some.injEq] at h2
  subst h2
  obtain ⟨u1, u2, h3⟩ := layout2Dp_ok L' h1
  obtain ⟨f1, f2⟩ := print_fills u1 u2
  exact ⟨print_labels L' x y, f1, f2, h3⟩

/-- C164, method 3, the part that holds: the lines show x and y of the last state of the integration in three dimensions, between 0 and 1; the
third coordinate is not printed. -/
theorem C164_space_partial (hf : files f = some text) (hs : Says text ps) (hm : atoi method = 3)
    (h : netlayout atoi atof jx jy files (f :: seed :: step :: nsteps :: damp :: method :: more) t = .ok (some out)) :
    out.map (·.1) = names ps ∧ (∀ p ∈ out, (0 ≤ p.2.1 ∧ p.2.1 ≤ 1) ∧ 0 ≤ p.2.2 ∧ p.2.2 ≤ 1) ∧
      ∃ (N : GP.Net) (b : ℕ) (r0 : LY.Pos) (s0 s : LY.MD3), Numbered ps N ∧
        LY.boxesPerRow3 (names ps).length (graph ps).edgeSet.ncard = some b ∧
        (∀ i < N.n, ∀ d : Fin 3, r0 d i = nth t (3 * i + d)) ∧ LY.place3 b r0 N.n = some s0 ∧
        LY.mdLoop3 N (if atof damp < 0 then 1 / 20 else (atof damp : ℝ)) (if atof step < 0 then 1 / 20 else (atof step : ℝ)) b
          (atoi nsteps).toNat s0 = some s ∧ Shows (fun _ _ => True) out (s.r 0) (s.r 1) ∧
        ((∀ d i, i < N.n → |s.r d i| ≤ 10 ^ 100) → Fills (out.map (·.2.1)) ∧ Fills (out.map (·.2.2))) := by
  obtain ⟨net, e, L⟩ := load_ok hf hs
  have L' := L.totalLinks.2.2
  simp only [netlayout, e, Res.bind_ok, hm, if_true] at h
  split_ifs at h with h0
  obtain ⟨⟨x, y, z⟩, h1, h2⟩ := bind_inv h
  simp only [Res.pure_eq, Res.ok.injEq, Option.some.injEq] at h2
  subst h2
  obtain ⟨hpos, hr, N, b, r0, s0, s, k1, k2, k3, k4, k5, k6, k7⟩ := layout3D_ok L' h1
  refine ⟨print_labels L' x y, ?_, N, b, r0, s0, s, k1, k2, k3, k4, k5, k6, fun hb => ?_⟩
  · intro p hp
    obtain ⟨i, hi, rfl⟩ := List.mem_map.1 hp
    exact hr i (List.mem_range.1 hi)
  · obtain ⟨u1, u2⟩ := k7 hb
    exact print_fills u1 u2

/-- C164, the crashes: fewer than six arguments give the usage; a file that is missing or has a line of one field, a file without links, or
one with more than 46340 labels is undefined behaviour. -/
theorem C164_crash :
    (∀ argv : List String, argv.length < 6 → netlayout atoi atof jx jy files argv t = .ok none) ∧
    (files f = none ∨ (∃ text, files f = some text ∧ Malformed text) →
      netlayout atoi atof jx jy files (f :: seed :: step :: nsteps :: damp :: method :: more) t = .ub) ∧
    (files f = some text → Says text ps → atof step ≠ 0 → ((∀ a b, ¬ (graph ps).Adj a b) ∨ 46340 < (names ps).length) →
      netlayout atoi atof jx jy files (f :: seed :: step :: nsteps :: damp :: method :: more) t = .ub) := by
  refine ⟨?_, ?_, ?_⟩
  · intro argv h
    rcases argv with _ | ⟨_, _ | ⟨_, _ | ⟨_, _ | ⟨_, _ | ⟨_, _ | ⟨_, _⟩⟩⟩⟩⟩⟩ <;> first | rfl | (simp at h; omega)
  · rintro (h | ⟨text, h, hm⟩)
    · simp [netlayout, load_missing h]
    · simp [netlayout, load_malformed h hm]
  · intro hf hs h0 hbad
    obtain ⟨net, e, L⟩ := load_ok hf hs
    have L' := L.totalLinks.2.2
    have key : ∀ net' : GR.Net, Loaded ps net' → LY.boxesPerRow net'.n (TotalNLinks net' true).1 = none ∧
        LY.boxesPerRow3 net'.n (TotalNLinks net' true).1 = none := by
      intro net' L'
      rw [L'.totalLinks.1, L'.len]
      unfold LY.boxesPerRow LY.boxesPerRow3
      rcases hbad with hbad | hbad
      · have : (graph ps).edgeSet = ∅ := by
          rw [Set.eq_empty_iff_forall_notMem]
          intro e he
          induction e with
          | _ a c => exact hbad a c he
        rw [this]
        simp
      · have : BFS.i32 ((names ps).length * (names ps).length) = none := by
          unfold BFS.i32
          rw [if_neg]
          have : 46341 * 46341 ≤ (names ps).length * (names ps).length := Nat.mul_le_mul (by omega) (by omega)
          omega
        rw [this]
        exact ⟨rfl, rfl⟩
    obtain ⟨k1, k2⟩ := key _ L'
    simp only [netlayout, e, Res.bind_ok, h0, if_false]
    split_ifs
    · simp [layout3D, k2, Res.ofOption]
    · simp [layout2Dp, k2, Res.ofOption]
    · simp [layout2D, k1, Res.ofOption]

end

/-! ## C165 -/

section
variable {jx jy : ℕ → ℝ} {files : String → Option (List Char)} {f g : String} {more : List String} {pss : List (List (String × String))}
  {t : Tape} {out : List (String × ℝ × ℝ)}

/-- C165, the part that holds: if no NaN appears, `multinetlayout` prints one line for each label of the files, in order of first
appearance in the files one after the other, with coordinates that fill the unit square; within each connected component of the
union they show the last state of the integration of 100000 steps for the union of the networks, whose links all have weight 1. -/
theorem C165_partial (hf : List.Forall₂ (fun f ps => ∃ text, files f = some text ∧ Says text ps) (f :: g :: more) pss)
    (h : multinetlayout jx jy files (f :: g :: more) t = .ok (some out)) :
    out.map (·.1) = names pss.flatten ∧ Fills (out.map (·.2.1)) ∧ Fills (out.map (·.2.2)) ∧
      ∃ N b x0 y0 s0 s, Numbered pss.flatten N ∧
        LY.boxesPerRow (names pss.flatten).length (graph pss.flatten).edgeSet.ncard = some b ∧
        (∀ i < N.n, x0 i = nth t (2 * i) ∧ y0 i = nth t (2 * i + 1)) ∧ LY.place b x0 y0 N.n = some s0 ∧
        LY.mdLoop N (1 / 20) (1 / 20) b 100000 s0 = some s ∧ Shows (graph pss.flatten).Reachable out s.x s.y := by
  obtain ⟨nets, e, hl⟩ := loadAll_ok _ _ hf
  simp only [multinetlayout, e, Res.bind_ok] at h
  cases hl with
  | nil => cases hf
  | cons hA hr =>
    obtain ⟨S, eS, L⟩ := fold_loaded _ _ _ _ hA hr
    simp only [eS, Res.ofOption_some, Res.bind_ok] at h
    obtain ⟨⟨x, y⟩, h1, h2⟩ := bind_inv h
    simp only [Res.pure_eq, Res.ok.injEq, Option.some.injEq] at h2
    subst h2
    obtain ⟨u1, u2, h3⟩ := layout2D_ok L h1
    obtain ⟨f1, f2⟩ := print_fills u1 u2
    exact ⟨print_labels L x y, f1, f2, h3⟩

/-- C165: fewer than two files give the usage; a file that is missing or has a line of one field is undefined behaviour. -/
theorem C165_crash :
    (∀ argv : List String, argv.length < 2 → multinetlayout jx jy files argv t = .ok none) ∧
    ((∃ a ∈ f :: g :: more, files a = none ∨ ∃ text, files a = some text ∧ Malformed text) →
      multinetlayout jx jy files (f :: g :: more) t = .ub) := by
  refine ⟨?_, ?_⟩
  · intro argv h
    rcases argv with _ | ⟨_, _ | ⟨_, _⟩⟩ <;> first | rfl | (simp at h)
  · rintro ⟨a, ha, hbad⟩
    have : load files a = .ub := by
      rcases hbad with h | ⟨text, h, hm⟩
      · exact load_missing h
      · exact load_malformed h hm
    simp [multinetlayout, loadAll_bad this _ (fun g _ => load_total files g) ha]

end

/-! ## Which runs give coordinates -/

theorem draws_total : ∀ (k : ℕ) (t : Tape), k ≤ t.length → (∀ u ∈ t, 0 ≤ u ∧ u < 1) → draws k t = .ok (t.take k, t.drop k)
  | 0, t, _, _ => by simp [draws]
  | k + 1, [], h, _ => by simp at h
  | k + 1, u :: t, h, hu => by
    unfold draws
    simp only [draw]
    rw [if_pos (hu u (by simp)), Res.bind_ok]
    simp only
    rw [draws_total k t (by simpa using h) (fun v hv => hu v (by simp [hv])), Res.bind_ok]
    simp

theorem nth_unit {t : Tape} (hu : ∀ u ∈ t, 0 ≤ u ∧ u < 1) (m : ℕ) : 0 ≤ nth t m ∧ nth t m ≤ 1 := by
  unfold nth
  rw [List.getD_eq_getElem?_getD]
  cases h : t[m]? with
  | none => simp
  | some u =>
    have := hu u (List.mem_of_getElem? h)
    simp only [Option.getD_some]
    exact ⟨by exact_mod_cast this.1, by exact_mod_cast this.2.le⟩

theorem boxes_ok {n m : ℕ} (hn : n ≤ 46340) (hm : 0 < m) : ∃ b, 0 < b ∧ LY.boxesPerRow n m = some b := by
  have : BFS.i32 (n * n) = some (n * n) := by
    unfold BFS.i32
    rw [if_pos]
    have : n * n ≤ 46340 * 46340 := Nat.mul_le_mul hn hn
    omega
  refine ⟨max 1 ⌊Real.sqrt (((n * n : ℕ) : ℝ) / (10 * m))⌋₊, by omega, ?_⟩
  unfold LY.boxesPerRow
  rw [this]
  simp only [Option.bind_eq_bind, Option.bind_some]
  rw [if_neg (by omega)]

theorem links_pos {ps : List (String × String)} {a b : String} (hab : (graph ps).Adj a b) : 0 < (graph ps).edgeSet.ncard := by
  have hfin : (graph ps).edgeSet.Finite := by
    refine Set.Finite.subset (Set.Finite.image (fun p : String × String => s(p.1, p.2)) ps.finite_toSet) ?_
    intro e he
    induction e with
    | _ a b =>
      rcases ((SimpleGraph.mem_edgeSet _).1 he).2 with h | h
      · exact ⟨_, h, rfl⟩
      · exact ⟨_, h, Sym2.eq_swap⟩
  exact (Set.ncard_pos hfin).2 ⟨s(a, b), hab⟩

section
variable {atoi : String → Int} {atof : String → ℚ} {jx jy : ℕ → ℝ} {files : String → Option (List Char)} {f seed step nsteps damp method : String}
  {more : List String} {text : List Char} {ps : List (String × String)} {t : Tape}

/-- C164: two linked labels that get the same random numbers end a run of at least one step with NaN. -/
theorem C164_same_place (hf : files f = some text) (hs : Says text ps) (hm : atoi method ≠ 3 ∧ atoi method ≠ 2)
    (h0 : atof step ≠ 0) (hn : (names ps).length ≤ 46340) (ht : 2 * (names ps).length ≤ t.length) (hu : ∀ u ∈ t, 0 ≤ u ∧ u < 1)
    (hk : 0 < atoi nsteps) {i j : ℕ} {a b : String} (ha : (names ps)[i]? = some a) (hb : (names ps)[j]? = some b)
    (hab : (graph ps).Adj a b) (hx : nth t (2 * i) = nth t (2 * j)) (hy : nth t (2 * i + 1) = nth t (2 * j + 1)) :
    netlayout atoi atof jx jy files (f :: seed :: step :: nsteps :: damp :: method :: more) t = .ub := by
  obtain ⟨net, e, L⟩ := load_ok hf hs
  have L' := L.totalLinks.2.2
  simp only [netlayout, e, Res.bind_ok, hm.1, hm.2, h0, if_false]
  set net' := (TotalNLinks net true).2
  obtain ⟨c, hc, hbox⟩ := boxes_ok (m := (TotalNLinks net' true).1) (L'.len ▸ hn) (by rw [L'.totalLinks.1]; exact links_pos hab)
  have hd := draws_total (2 * net'.n) t (L'.len ▸ ht) hu
  have hi : i < net'.n := by rw [L'.len]; exact (List.getElem?_eq_some_iff.1 ha).1
  have hj : j < net'.n := by rw [L'.len]; exact (List.getElem?_eq_some_iff.1 hb).1
  have hcx : ∀ k < net'.n, coord 2 (t.take (2 * net'.n)) 0 k = nth t (2 * k) := fun k hk => coord_eq hd (by norm_num) hk
  have hcy : ∀ k < net'.n, coord 2 (t.take (2 * net'.n)) 1 k = nth t (2 * k + 1) := fun k hk => coord_eq hd (by norm_num) hk
  obtain ⟨s, es, hfl, sx, sy, -⟩ := LY.place_ok c hc (coord 2 (t.take (2 * net'.n)) 0) (coord 2 (t.take (2 * net'.n)) 1) net'.n
    (fun k hk => by rw [hcx k hk]; exact nth_unit hu _) (fun k hk => by rw [hcy k hk]; exact nth_unit hu _)
  obtain ⟨m, hm'⟩ : ∃ m, (atoi nsteps).toNat = m + 1 := ⟨(atoi nsteps).toNat - 1, by omega⟩
  have hlink : ((toNet net').link i j).isSome := by rw [(numbered L').link i j a b ha hb, if_pos hab]; rfl
  have hcol : LY.Collision (toNet net') c s.x s.y s.oldbox :=
    ⟨i, j, hi, hj, Or.inl hlink, by rw [sx, hcx i hi, hcx j hj, hx], by rw [sy, hcy i hi, hcy j hj, hy]⟩
  have hnone := (LY.C97_forces (toNet net') (toNet_simple L') s.x s.y c s.boxes s.oldbox hfl).1 hcol
  have hloop : LY.mdLoop (toNet net') (orDefault (atof damp)) (orDefault (atof step)) c (atoi nsteps).toNat s = none := by
    rw [hm', LY.mdLoop, LY.mdStep, hnone]
    rfl
  simp only [layout2D, hbox, Res.ofOption_some, Res.bind_ok, hd, es, hloop]
  rfl

/-- C164: a run of no steps on a connected network gives coordinates when the random numbers are not all equal. -/
theorem C164_no_steps (hf : files f = some text) (hs : Says text ps) (hm : atoi method ≠ 3 ∧ atoi method ≠ 2)
    (h0 : atof step ≠ 0) (hn : (names ps).length ≤ 46340) (ht : 2 * (names ps).length ≤ t.length) (hu : ∀ u ∈ t, 0 ≤ u ∧ u < 1)
    (hk : atoi nsteps ≤ 0) {a b : String} (hab : (graph ps).Adj a b) (hcon : ∀ a ∈ names ps, ∀ b ∈ names ps, (graph ps).Reachable a b)
    (hx : ∃ i < (names ps).length, ∃ j < (names ps).length, nth t (2 * i) ≠ nth t (2 * j))
    (hy : ∃ i < (names ps).length, ∃ j < (names ps).length, nth t (2 * i + 1) ≠ nth t (2 * j + 1)) :
    ∃ out, netlayout atoi atof jx jy files (f :: seed :: step :: nsteps :: damp :: method :: more) t = .ok (some out) := by
  obtain ⟨net, e, L⟩ := load_ok hf hs
  have L' := L.totalLinks.2.2
  simp only [netlayout, e, Res.bind_ok, hm.1, hm.2, h0, if_false]
  set net' := (TotalNLinks net true).2
  obtain ⟨c, hc, hbox⟩ := boxes_ok (m := (TotalNLinks net' true).1) (L'.len ▸ hn) (by rw [L'.totalLinks.1]; exact links_pos hab)
  have hd := draws_total (2 * net'.n) t (L'.len ▸ ht) hu
  have hcx : ∀ k < net'.n, coord 2 (t.take (2 * net'.n)) 0 k = nth t (2 * k) := fun k hk => coord_eq hd (by norm_num) hk
  have hcy : ∀ k < net'.n, coord 2 (t.take (2 * net'.n)) 1 k = nth t (2 * k + 1) := fun k hk => coord_eq hd (by norm_num) hk
  obtain ⟨s, es, hfl, sx, sy, -⟩ := LY.place_ok c hc (coord 2 (t.take (2 * net'.n)) 0) (coord 2 (t.take (2 * net'.n)) 1) net'.n
    (fun k hk => by rw [hcx k hk]; exact nth_unit hu _) (fun k hk => by rw [hcy k hk]; exact nth_unit hu _)
  have hpos : 0 < net'.n := by
    obtain ⟨i, hi, -⟩ := L'.node_of (adj_names hab).1
    omega
  rw [← L'.len] at hx hy
  obtain ⟨x', y', e1, -, -, x'', y'', e2, -⟩ := LY.C99_normalize net'.n s.x s.y
    (LY.unit_bounds fun k hk => by rw [sx, hcx k hk]; exact nth_unit hu _)
    (LY.unit_bounds fun k hk => by rw [sy, hcy k hk]; exact nth_unit hu _)
    (by obtain ⟨i, hi, j, hj, h⟩ := hx; exact ⟨i, j, hi, hj, by rw [sx, hcx i hi, hcx j hj]; exact h⟩)
    (by obtain ⟨i, hi, j, hj, h⟩ := hy; exact ⟨i, j, hi, hj, by rw [sy, hcy i hi, hcy j hj]; exact h⟩)
  have hz : (atoi nsteps).toNat = 0 := by omega
  have harr := LY.C103_connected (targets net') net'.n hpos L'.range (fun v hv =>
    (L'.reach_iff hpos hv).2 (hcon _ (L'.label_mem hpos) _ (L'.label_mem hv))) jx jy x' y' (t.drop (2 * net'.n))
  refine ⟨PrintNodeCoordinates net' x'' y'', ?_⟩
  simp only [layout2D, hbox, Res.ofOption_some, Res.bind_ok, hd, es, hz, LY.mdLoop, finish, e1, harr, e2, Res.pure_eq]

theorem boxes3_ok {n m : ℕ} (hn : n ≤ 46340) (hm : 0 < m) : ∃ b, 0 < b ∧ LY.boxesPerRow3 n m = some b := by
  have : BFS.i32 (n * n) = some (n * n) := by
    unfold BFS.i32
    rw [if_pos]
    have : n * n ≤ 46340 * 46340 := Nat.mul_le_mul hn hn
    omega
  refine ⟨max 1 ⌊(((n * n : ℕ) : ℝ) / (10 * m)) ^ ((1 : ℝ) / 3)⌋₊, by omega, ?_⟩
  unfold LY.boxesPerRow3
  rw [this]
  simp only [Option.bind_eq_bind, Option.bind_some]
  rw [if_neg (by omega)]

/-- C164: the same for the methods in three dimensions. -/
theorem C164_no_steps_space (hf : files f = some text) (hs : Says text ps) (hm : atoi method = 3 ∨ atoi method = 2)
    (h0 : atof step ≠ 0) (hn : (names ps).length ≤ 46340) (ht : 3 * (names ps).length ≤ t.length) (hu : ∀ u ∈ t, 0 ≤ u ∧ u < 1)
    (hk : atoi nsteps ≤ 0) {a b : String} (hab : (graph ps).Adj a b) (hcon : ∀ a ∈ names ps, ∀ b ∈ names ps, (graph ps).Reachable a b)
    (hd : ∀ d < 3, ∃ i < (names ps).length, ∃ j < (names ps).length, nth t (3 * i + d) ≠ nth t (3 * j + d)) :
    ∃ out, netlayout atoi atof jx jy files (f :: seed :: step :: nsteps :: damp :: method :: more) t = .ok (some out) := by
  obtain ⟨net, e, L⟩ := load_ok hf hs
  have L' := L.totalLinks.2.2
  set net' := (TotalNLinks net true).2 with hnet
  obtain ⟨c, hc, hbox⟩ := boxes3_ok (m := (TotalNLinks net' true).1) (L'.len ▸ hn) (by rw [L'.totalLinks.1]; exact links_pos hab)
  have hdr := draws_total (3 * net'.n) t (L'.len ▸ ht) hu
  have hcd : ∀ d : Fin 3, ∀ k < net'.n, coord 3 (t.take (3 * net'.n)) d k = nth t (3 * k + d) := fun d k hk => coord_eq hdr d.2 hk
  obtain ⟨s, es, -, sr, -⟩ := LY.place3_ok c hc (fun d => coord 3 (t.take (3 * net'.n)) d) net'.n
    (fun d k hk => by rw [hcd d k hk]; exact nth_unit hu _)
  have hpos : 0 < net'.n := by
    obtain ⟨i, hi, -⟩ := L'.node_of (adj_names hab).1
    omega
  rw [← L'.len] at hd
  have hb : ∀ d : Fin 3, ∀ k < net'.n, 0 ≤ s.r d k ∧ s.r d k ≤ 1 := fun d k hk => by rw [sr]; simp only [hcd d k hk]; exact nth_unit hu _
  have hne : ∀ d : Fin 3, ∃ i j, i < net'.n ∧ j < net'.n ∧ s.r d i ≠ s.r d j := fun d => by
    obtain ⟨i, hi, j, hj, h⟩ := hd d d.2
    exact ⟨i, j, hi, hj, by rw [sr]; simp only [hcd d i hi, hcd d j hj]; exact h⟩
  have hz : (atoi nsteps).toNat = 0 := by omega
  rcases hm with hm | hm
  · obtain ⟨x, ex, -⟩ := LY.normalize_ok (LY.unit_bounds (hb 0)) (hne 0)
    obtain ⟨y, ey, -⟩ := LY.normalize_ok (LY.unit_bounds (hb 1)) (hne 1)
    obtain ⟨z, ez, -⟩ := LY.normalize_ok (LY.unit_bounds (hb 2)) (hne 2)
    refine ⟨PrintNodeCoordinates net' x y, ?_⟩
    simp only [netlayout, e, Res.bind_ok, hm, h0, if_false, if_true, ← hnet]
    have : LY.MDGraphLayout3D (toNet net') (orDefault (atof damp)) (orDefault (atof step)) 0 c
        (fun d => coord 3 (t.take (3 * net'.n)) d) = some (x, y, z) := by
      unfold LY.MDGraphLayout3D
      rw [show (toNet net').n = net'.n from rfl, es]
      simp only [Option.bind_eq_bind, Option.bind_some, LY.mdLoop3, ex, ey, ez]
    simp only [layout3D, hbox, Res.ofOption_some, Res.bind_ok, hdr, hz, this, Res.pure_eq]
  · obtain ⟨x', y', e1, -, -, x'', y'', e2, -⟩ := LY.C99_normalize net'.n (s.r 0) (s.r 1) (LY.unit_bounds (hb 0)) (LY.unit_bounds (hb 1))
      (hne 0) (hne 1)
    have harr := LY.C103_connected (targets net') net'.n hpos L'.range (fun v hv =>
      (L'.reach_iff hpos hv).2 (hcon _ (L'.label_mem hpos) _ (L'.label_mem hv))) jx jy x' y' (t.drop (3 * net'.n))
    refine ⟨PrintNodeCoordinates net' x'' y'', ?_⟩
    simp only [netlayout, e, Res.bind_ok, hm, h0, if_false, if_true, ← hnet, show ((2 : Int) = 3) = False by simp]
    simp only [layout2Dp, hbox, Res.ofOption_some, Res.bind_ok, hdr, es, hz, LY.mdLoop2Dp, finish, e1, harr, e2, Res.pure_eq]

end

/-! ## The claim in general -/

/-- The full statement of C164 for layouts in the plane: every file with a link gets coordinates, whatever the random numbers. -/
def C164_claim : Prop :=
  ∀ (atoi : String → Int) (atof : String → ℚ) (jx jy : ℕ → ℝ) (files : String → Option (List Char)) (f seed step nsteps damp method : String)
    (text : List Char) (ps : List (String × String)) (t : Tape), files f = some text → Says text ps → (∃ a b, (graph ps).Adj a b) →
    (names ps).length ≤ 46340 → atof step ≠ 0 →
    (netlayout atoi atof jx jy files [f, seed, step, nsteps, damp, method] t).Holds fun r => r ≠ none

/-- A file with one link. -/
def oneLink : String → Option (List Char) := fun f => if f = "net" then some (tex "a b\n") else none

theorem says_oneLink : Says (tex "a b\n") [("a", "b")] := by
  have : GR.fileFields (tex "a b\n") = [["a", "b"]] := by decide +kernel
  unfold Says
  rw [this]
  exact .cons ⟨by decide +kernel, by decide +kernel, [], rfl⟩ .nil

/-- Numbers on the command line. -/
def someInt (s : String) : Int := if s = "3" then 3 else if s = "2" then 2 else if s = "1" then 1 else if s = "10" then 10 else 0

theorem C164_refuted : ¬ C164_claim := by
  intro h
  have := h someInt (fun _ => -1) (fun _ => 0) (fun _ => 0) oneLink "net" "1111" "-1" "10" "-1" "1" _ _ [1 / 2, 1 / 2, 1 / 2, 1 / 2] rfl
    says_oneLink ⟨"a", "b", by decide +kernel, Or.inl (by simp)⟩ (by decide +kernel) (by norm_num)
  rw [C164_same_place (i := 0) (j := 1) (a := "a") (b := "b") rfl says_oneLink (by decide) (by norm_num) (by decide +kernel)
    (by decide +kernel) (by intro u hu; simp at hu; subst hu; norm_num) (by decide) (by decide +kernel) (by decide +kernel)
    ⟨by decide +kernel, Or.inl (by simp)⟩ (by simp [nth]) (by simp [nth])] at this
  exact this

/-- The hypotheses of `C164_plane_partial` hold. -/
example : ∃ out, netlayout someInt (fun _ => -1) (fun _ => 0) (fun _ => 0) oneLink ["net", "1111", "-1", "0", "-1", "1"] [0, 0, 1 / 2, 1 / 3] =
    .ok (some out) ∧ out.map (·.1) = ["a", "b"] := by
  have hab : (graph [("a", "b")]).Adj "a" "b" := ⟨by decide +kernel, Or.inl (by simp)⟩
  obtain ⟨out, h⟩ := C164_no_steps (atoi := someInt) (atof := fun _ => -1) (jx := fun _ => 0) (jy := fun _ => 0) (files := oneLink) (f := "net")
    (seed := "1111") (step := "-1") (nsteps := "0") (damp := "-1") (method := "1") (more := []) (t := [0, 0, 1 / 2, 1 / 3]) rfl
    says_oneLink (by decide) (by norm_num) (by decide +kernel) (by decide +kernel)
    (by intro u hu; simp at hu; rcases hu with rfl | rfl | rfl <;> norm_num) (by decide) hab (by
      have hn : names [("a", "b")] = ["a", "b"] := by decide +kernel
      rw [hn]
      intro x hx y hy
      simp at hx hy
      rcases hx with rfl | rfl <;> rcases hy with rfl | rfl
      · exact SimpleGraph.Reachable.refl _
      · exact hab.reachable
      · exact hab.symm.reachable
      · exact SimpleGraph.Reachable.refl _)
    ⟨0, by decide +kernel, 1, by decide +kernel, by simp [nth]⟩ ⟨0, by decide +kernel, 1, by decide +kernel, by simp [nth]⟩
  exact ⟨out, h, (C164_plane_partial (seed := "1111") rfl says_oneLink (by decide) h).1.trans (by decide +kernel)⟩

/-! ## Runs with steps -/

/-- Two linked labels, placed at distance 4/5, come to rest at once. -/
theorem layout2D_pair {ps : List (String × String)} {net : GR.Net} (L : Loaded ps net) {a b : String} (hn : names ps = [a, b])
    (hab : (graph ps).Adj a b) (jx jy : ℕ → ℝ) (k : ℕ) :
    ∃ x y, layout2D net (1 / 20) (1 / 20) (k + 1) jx jy [0, 0, 12 / 25, 16 / 25] = .ok (x, y) := by
  set t : Tape := [0, 0, 12 / 25, 16 / 25] with ht
  have hlen : net.n = 2 := by rw [L.len, hn]; rfl
  have hu : ∀ u ∈ t, 0 ≤ u ∧ u < 1 := by
    intro u hu
    simp [ht] at hu
    rcases hu with rfl | rfl | rfl <;> norm_num
  have hbox : LY.boxesPerRow net.n (TotalNLinks net true).1 = some 1 := by
    rw [L.totalLinks.1, hlen]
    have hm : 0 < (graph ps).edgeSet.ncard := links_pos hab
    generalize (graph ps).edgeSet.ncard = m at hm
    unfold LY.boxesPerRow
    simp only [BFS.i32, Option.bind_eq_bind]
    rw [if_pos (by norm_num), Option.bind_some, if_neg (by omega)]
    have : ⌊Real.sqrt (((2 * 2 : ℕ) : ℝ) / (10 * m))⌋₊ = 0 := by
      rw [Nat.floor_eq_zero, Real.sqrt_lt' (by norm_num), div_lt_iff₀ (by positivity)]
      have : (1 : ℝ) ≤ m := by exact_mod_cast hm
      push_cast
      linarith
    rw [this]
    rfl
  have hd := draws_total (2 * net.n) t (by rw [hlen, ht]; simp) hu
  have hcx : ∀ k < net.n, coord 2 (t.take (2 * net.n)) 0 k = nth t (2 * k) := fun k hk => coord_eq hd (by norm_num) hk
  have hcy : ∀ k < net.n, coord 2 (t.take (2 * net.n)) 1 k = nth t (2 * k + 1) := fun k hk => coord_eq hd (by norm_num) hk
  obtain ⟨s, es, hfl, sx, sy, px, py⟩ := LY.place_ok 1 one_pos (coord 2 (t.take (2 * net.n)) 0) (coord 2 (t.take (2 * net.n)) 1) net.n
    (fun k hk => by rw [hcx k hk]; exact nth_unit hu _) (fun k hk => by rw [hcy k hk]; exact nth_unit hu _)
  have hl : (toNet net).link 0 1 = some 1 := by
    rw [(numbered L).link 0 1 a b (by rw [hn]; rfl) (by rw [hn]; rfl), if_pos hab]
  obtain ⟨s', hs', x0, x01, x1, y0, y01, y1⟩ := LY.rest (toNet net) (toNet_simple L) hlen hl s hfl (by rw [px, sx]) (by rw [py, sy])
    (by rw [sx, hcx 0 (by omega)]; simp [nth, ht]) (by rw [sy, hcy 0 (by omega)]; simp [nth, ht])
    (by rw [sx, hcx 1 (by omega)]; simp [nth, ht]) (by rw [sy, hcy 1 (by omega)]; simp [nth, ht]) k
  have two : ∀ i < net.n, i = 0 ∨ i = 1 := fun i hi => by omega
  obtain ⟨x', y', e1, -, -, x'', y'', e2, -⟩ := LY.C99_normalize net.n s'.x s'.y
    (LY.unit_bounds fun i hi => by rcases two i hi with rfl | rfl <;> constructor <;> linarith)
    (LY.unit_bounds fun i hi => by rcases two i hi with rfl | rfl <;> constructor <;> linarith)
    ⟨0, 1, by omega, by omega, x01.ne⟩ ⟨0, 1, by omega, by omega, y01.ne⟩
  have hlab : ∀ i < net.n, net.label i = a ∨ net.label i = b := fun i hi => by
    have := L.label_mem hi
    rw [hn] at this
    simpa using this
  have harr := LY.C103_connected (targets net) net.n (by omega) L.range (fun v hv => (L.reach_iff (by omega) hv).2 (by
    rcases hlab 0 (by omega) with h | h <;> rcases hlab v hv with h' | h' <;> rw [h, h']
    · exact hab.reachable
    · exact hab.symm.reachable)) jx jy x' y' (t.drop (2 * net.n))
  refine ⟨x'', y'', ?_⟩
  simp only [layout2D, hbox, Res.ofOption_some, Res.bind_ok, hd, es, hs', finish, e1, harr, e2]

/-- Two files with the same link. -/
def twoLinks : String → Option (List Char) := fun f => if f = "one" then some (tex "a b\n") else if f = "two" then some (tex "b a\n") else none

theorem says_reversed : Says (tex "b a\n") [("b", "a")] := by
  have : GR.fileFields (tex "b a\n") = [["b", "a"]] := by decide +kernel
  unfold Says
  rw [this]
  exact .cons ⟨by decide +kernel, by decide +kernel, [], rfl⟩ .nil

/-- The hypotheses of `C165_partial` hold: a run of both files that prints coordinates. -/
example : ∃ out, multinetlayout (fun _ => 0) (fun _ => 0) twoLinks ["one", "two"] [0, 0, 12 / 25, 16 / 25] = .ok (some out) ∧
    out.map (·.1) = ["a", "b"] := by
  have hf : List.Forall₂ (fun f ps => ∃ text, twoLinks f = some text ∧ Says text ps) ["one", "two"] [[("a", "b")], [("b", "a")]] :=
    .cons ⟨_, rfl, says_oneLink⟩ (.cons ⟨_, rfl, says_reversed⟩ .nil)
  obtain ⟨nets, e, hl⟩ := loadAll_ok _ _ hf
  cases hl with
  | cons hA hr =>
    obtain ⟨S, eS, L⟩ := fold_loaded _ _ _ _ hA hr
    obtain ⟨x, y, h⟩ := layout2D_pair L (a := "a") (b := "b") (by decide +kernel) ⟨by decide +kernel, Or.inl (by simp)⟩
      (fun _ => 0) (fun _ => 0) 99999
    have hrun : multinetlayout (fun _ => 0) (fun _ => 0) twoLinks ["one", "two"] [0, 0, 12 / 25, 16 / 25] =
        .ok (some (PrintNodeCoordinates S x y)) := by
      simp only [multinetlayout, e, Res.bind_ok, eS, Res.ofOption_some]
      rw [show (100000 : ℕ) = 99999 + 1 from rfl, h]
      rfl
    exact ⟨_, hrun, (C165_partial hf hrun).1.trans (by decide +kernel)⟩

/-- The hypotheses of `C164_pulled_partial` and `C164_space_partial` hold. -/
example : (∃ out, netlayout someInt (fun _ => -1) (fun _ => 0) (fun _ => 0) oneLink ["net", "1111", "-1", "0", "-1", "2"]
      [0, 0, 0, 1 / 2, 1 / 3, 1 / 4] = .ok (some out)) ∧
    ∃ out, netlayout someInt (fun _ => -1) (fun _ => 0) (fun _ => 0) oneLink ["net", "1111", "-1", "0", "-1", "3"]
      [0, 0, 0, 1 / 2, 1 / 3, 1 / 4] = .ok (some out) := by
  have hab : (graph [("a", "b")]).Adj "a" "b" := ⟨by decide +kernel, Or.inl (by simp)⟩
  have hcon : ∀ x ∈ names [("a", "b")], ∀ y ∈ names [("a", "b")], (graph [("a", "b")]).Reachable x y := by
    have hn : names [("a", "b")] = ["a", "b"] := by decide +kernel
    rw [hn]
    intro x hx y hy
    simp at hx hy
    rcases hx with rfl | rfl <;> rcases hy with rfl | rfl
    · exact SimpleGraph.Reachable.refl _
    · exact hab.reachable
    · exact hab.symm.reachable
    · exact SimpleGraph.Reachable.refl _
  have hd : ∀ d < 3, ∃ i < (names [("a", "b")]).length, ∃ j < (names [("a", "b")]).length,
      nth [0, 0, 0, 1 / 2, 1 / 3, 1 / 4] (3 * i + d) ≠ nth [0, 0, 0, 1 / 2, 1 / 3, 1 / 4] (3 * j + d) := by
    intro d hd
    refine ⟨0, by decide +kernel, 1, by decide +kernel, ?_⟩
    rcases (by omega : d = 0 ∨ d = 1 ∨ d = 2) with rfl | rfl | rfl <;> simp [nth]
  have hu : ∀ u ∈ ([0, 0, 0, 1 / 2, 1 / 3, 1 / 4] : Tape), 0 ≤ u ∧ u < 1 := by
    intro u hu
    simp at hu
    rcases hu with rfl | rfl | rfl | rfl <;> norm_num
  exact ⟨C164_no_steps_space rfl says_oneLink (Or.inr (by decide)) (by norm_num) (by decide +kernel) (by decide +kernel) hu (by decide) hab hcon hd,
    C164_no_steps_space rfl says_oneLink (Or.inl (by decide)) (by norm_num) (by decide +kernel) (by decide +kernel) hu (by decide) hab hcon hd⟩

end PG
