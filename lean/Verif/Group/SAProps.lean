import Verif.Group.Split

/-! # C24, C48: the whole run of `SACommunityIdent` -/

set_option linter.unusedSimpArgs false

namespace GP

open RG

/-! ## Copies -/

theorem addAll_grp (net : Net) (g : ℕ) : ∀ (l : List ℕ) (p : Part),
    ((l.foldl (fun p v => AddNodeToGroup net g v p) p).grp g).nodes = (p.grp g).nodes ++ l ∧
    ((l.foldl (fun p v => AddNodeToGroup net g v p) p).grp g).size = (p.grp g).size + l.length ∧
    ∀ g', g' ≠ g → (l.foldl (fun p v => AddNodeToGroup net g v p) p).grp g' = p.grp g'
  | [], p => by simp
  | v :: l, p => by
    obtain ⟨h1, h2, h3⟩ := addAll_grp net g l (AddNodeToGroup net g v p)
    rw [List.foldl_cons]
    refine ⟨?_, ?_, ?_⟩
    · rw [h1]; simp [AddNodeToGroup]
    · rw [h2]; simp [AddNodeToGroup]; ring
    · intro g' hg'
      rw [h3 g' hg']; simp [AddNodeToGroup, hg']

theorem copy_lists (net : Net) (orig : ℕ → Grp) (ig : ℕ → Option ℕ) : ∀ (m g : ℕ),
    ((CopyPartition net m orig ig).grp g).nodes = (if g < m then (orig g).nodes else []) ∧
    ((CopyPartition net m orig ig).grp g).size = ((if g < m then (orig g).nodes else []).length : ℕ)
  | 0, g => by simp [CopyPartition, Grp.empty]
  | m + 1, g => by
    obtain ⟨i1, i2⟩ := copy_lists net orig ig m g
    unfold CopyPartition at i1 i2 ⊢
    rw [List.range_succ, List.foldl_append, List.foldl_cons, List.foldl_nil]
    obtain ⟨h1, h2, h3⟩ := addAll_grp net m (orig m).nodes (List.foldl
      (fun p g => List.foldl (fun p v => AddNodeToGroup net g v p) p (orig g).nodes)
      { grp := fun _ => Grp.empty, inGroup := ig } (List.range m))
    by_cases e : g = m
    · subst e
      rw [h1, h2, i1, i2]
      simp
    · rw [h3 g e, i1, i2]
      have : g < m ↔ g < m + 1 := by omega
      simp only [this, and_self]

theorem map_of_lists {net : Net} (h : net.Simple) {m : ℕ} {p q : Part} (hp : PartOK net m p)
    (hq : ∀ g < m, (q.grp g).nodes = (p.grp g).nodes ∧ (q.grp g).size = (p.grp g).nodes.length) :
    PartOK net m (MapPartToNet net m q) ∧ (MapPartToNet net m q).inGroup = p.inGroup := by
  have hl := hp.lists
  have hlq : ListsOK net m q := by
    refine ⟨?_, ?_, ?_, ?_⟩
    · intro g hg; rw [(hq g hg).1]; exact hl.nodup g hg
    · intro g hg; rw [(hq g hg).1]; exact hl.range g hg
    · intro g hg g' hg'; rw [(hq g hg).1, (hq g' hg').1]; exact hl.disj g hg g' hg'
    · intro g hg; rw [(hq g hg).1, (hq g hg).2]
  refine ⟨map_ok h hlq, ?_⟩
  rw [← (map_id h hp).1]
  funext v
  apply Option.ext
  intro g
  simp only [MapPartToNet]
  rw [mapInGroup_iff m hlq.disj, mapInGroup_iff m hl.disj]
  constructor
  · rintro ⟨hg, hv⟩; exact ⟨hg, (hq g hg).1 ▸ hv⟩
  · rintro ⟨hg, hv⟩; exact ⟨hg, (hq g hg).1.symm ▸ hv⟩

/-! ## Steps -/

/-- Settings for which the run makes sense. -/
structure Cfg.OK (c : Cfg) : Prop where
  simple : c.net.Simple
  deg : degSum c.net ≠ 0
  L : c.L = degSum c.net
  m : 0 < c.m

theorem Cfg.OK.n {c : Cfg} (hc : c.OK) : 0 < c.net.n := by
  by_contra h
  have h0 : c.net.n = 0 := by omega
  apply hc.deg
  unfold degSum
  rw [h0]; simp

/-- A consistent partition of all nodes, whose modularity is `energy`. -/
structure Good (c : Cfg) (s : St) : Prop where
  part : PartOK c.net c.m s.part
  full : Full c.net s.part
  energy : Modularity c.m s.part = some s.energy
  tape : NZ s.tape

theorem moveStep_good {c : Cfg} (hc : c.OK) (T : ℚ) (s : St) (hs : Good c s) :
    (moveStep c T s).Holds (Good c) := by
  unfold moveStep
  refine (pick_all hc.n hs.tape).bind ?_
  rintro ⟨v, t1⟩ ⟨hv, hz1⟩
  dsimp only at *
  cases hg : s.part.inGroup v with
  | none => exact absurd hg (hs.full v hv)
  | some old =>
    dsimp only
    refine (redraw_all (P := fun g => g < c.m) (fun u _ h1 => floor_lt h1 hc.m) hz1).bind ?_
    rintro ⟨new, t2⟩ ⟨⟨hnew, hb⟩, hz2⟩
    dsimp only at *
    have hne : new ≠ old := by simpa using hb
    rw [if_pos hnew]
    refine (metropolis_nz hz2).bind ?_
    rintro ⟨a, t3⟩ hz3
    dsimp only at *
    cases a with
    | false => exact ⟨hs.part, hs.full, hs.energy, hz3⟩
    | true =>
      obtain ⟨_, h2, h3⟩ := move_ok hc.simple hs.part hnew hg
      obtain ⟨q, q', e1, e2, e3⟩ := C24_move hc.simple hs.part hs.full hc.deg hnew hg hne.symm
      refine ⟨h2, full_update hs.full h3, ?_, hz3⟩
      rw [hs.energy] at e1
      cases e1
      dsimp only
      rw [e2, hc.L, e3]
      congr 1; ring

theorem full_merge {net : Net} {p p' : Part} {g1 g2 : ℕ} (hf : Full net p)
    (hi : p'.inGroup = fun u => if p.inGroup u = some g1 then some g2 else p.inGroup u) : Full net p' := by
  intro u hu
  rw [hi]
  dsimp only
  split_ifs
  · simp
  · exact hf u hu

theorem mergeStep_good {c : Cfg} (hc : c.OK) (T : ℚ) (s : St) (hs : Good c s) :
    (mergeStep c T s).Holds (Good c) := by
  unfold mergeStep
  refine (pick_all hc.n hs.tape).bind ?_
  rintro ⟨v, t1⟩ ⟨hv, hz1⟩
  dsimp only at *
  cases hg : s.part.inGroup v with
  | none => exact absurd hg (hs.full v hv)
  | some g1 =>
    dsimp only
    split_ifs with hsz
    · refine (redraw_all (P := fun d => d < c.net.n) (fun u _ h1 => floor_lt h1 hc.n) hz1).bind ?_
      rintro ⟨d, t2⟩ ⟨⟨hd, hb⟩, hz2⟩
      dsimp only at *
      cases hg2 : s.part.inGroup d with
      | none => exact absurd hg2 (hs.full d hd)
      | some g2 =>
        dsimp only
        have hne : g1 ≠ g2 := by
          rintro rfl
          simp [hg2] at hb
        refine (metropolis_nz hz2).bind ?_
        rintro ⟨a, t3⟩ hz3
        dsimp only at *
        cases a with
        | false => exact ⟨hs.part, hs.full, hs.energy, hz3⟩
        | true =>
          have m1 := (hs.part.range v g1 hg).2
          have m2 := (hs.part.range d g2 hg2).2
          obtain ⟨p', q, q', e0, e1, e2, e3⟩ := C24_merge hc.simple hs.part hs.full hc.deg m1 m2 hne
          obtain ⟨p'', e0', hp', hi⟩ := merge_ok hc.simple hs.part m1 m2 hne
          rw [e0] at e0'
          cases e0'
          rw [e0]
          refine ⟨hp', full_merge hs.full hi, ?_, hz3⟩
          rw [hs.energy] at e1
          cases e1
          dsimp only
          rw [e2, hc.L, e3]
          congr 1; ring
    · exact ⟨hs.part, hs.full, hs.energy, hz1⟩

theorem moves_ok {net : Net} (h : net.Simple) {m g e : ℕ} (he : e < m) (hne : g ≠ e) :
    ∀ (l : List ℕ) (p : Part), PartOK net m p → l.Nodup → (∀ v ∈ l, p.inGroup v = some g) →
      PartOK net m (l.foldl (fun p v => (MoveNode net v g e p).2) p) ∧
      (l.foldl (fun p v => (MoveNode net v g e p).2) p).inGroup =
        fun u => if u ∈ l then some e else p.inGroup u
  | [], p, hp, _, _ => ⟨hp, by simp⟩
  | v :: l, p, hp, hnd, hl => by
    rw [List.nodup_cons] at hnd
    obtain ⟨_, h2, h3⟩ := move_ok h hp he (hl v (by simp))
    rw [List.foldl_cons]
    obtain ⟨a, b⟩ := moves_ok h he hne l _ h2 hnd.2 (by
      intro u hu
      have e' : u ≠ v := by rintro rfl; exact hnd.1 hu
      rw [h3, Function.update_of_ne e']
      exact hl u (by simp [hu]))
    refine ⟨a, ?_⟩
    rw [b, h3]
    funext u
    by_cases hu : u ∈ l
    · simp [hu]
    · by_cases e' : u = v
      · subst e'; simp [hu]
      · simp [hu, e']

theorem inverseMetropolis_nz {acc : ℚ → ℚ → ℚ → Bool} {dE T : ℚ} {t : Tape} (h : NZ t) :
    (inverseMetropolis acc dE T t).Holds fun r => NZ r.2 := by
  unfold inverseMetropolis
  split_ifs
  · refine (draw_nz h).bind ?_
    rintro ⟨u, t'⟩ ⟨_, h⟩
    exact h
  · exact h

/-- Renumbering a group does not change the modularity. -/
theorem newman_relabel {net : Net} {f : ℕ → Option ℕ} {g e : ℕ} (he : ∀ u < net.n, f u ≠ some e) :
    newman net (fun u => if f u = some g then some e else f u) = newman net f := by
  apply newman_congr
  intro i hi j hj
  by_cases h1 : f i = some g
  · by_cases h2 : f j = some g
    · simp [h1, h2]
    · have : ¬ some e = f j := fun e' => he j hj e'.symm
      have h2' : ¬ some g = f j := fun e' => h2 e'.symm
      simp [h1, h2, this, h2']
  · by_cases h2 : f j = some g
    · have := he i hi
      simp [h1, h2, this]
    · simp [h1, h2]

theorem splitStep_good {c : Cfg} (hc : c.OK) (T : ℚ) (s : St) (hs : Good c s) :
    (splitStep c T s).Holds (Good c) := by
  unfold splitStep
  refine (pick_all hc.n hs.tape).bind ?_
  rintro ⟨v, t1⟩ ⟨hv, hz1⟩
  dsimp only at *
  cases hg : s.part.inGroup v with
  | none => exact absurd hg (hs.full v hv)
  | some g =>
    dsimp only
    cases hfe : (List.range c.m).find? (fun e => (s.part.grp e).size = 0) with
    | none => exact ⟨hs.part, hs.full, hs.energy, hz1⟩
    | some e =>
      dsimp only
      have he : e < c.m := List.mem_range.1 (List.mem_of_find?_eq_some hfe)
      have he0 : (s.part.grp e).size = 0 := by simpa using List.find?_some hfe
      have hem : ∀ u < c.net.n, s.part.inGroup u ≠ some e := by
        intro u hu h1
        have h2 := (hs.part.groups e he).size
        rw [he0] at h2
        have h3 : (members c.net s.part e).card = 0 := by omega
        rw [Finset.card_eq_zero] at h3
        have h4 : u ∈ members c.net s.part e := mem_members.2 ⟨hu, h1⟩
        rw [h3] at h4
        simp at h4
      have hgm := (hs.part.range v g hg).2
      have hge : g ≠ e := fun e' => hem v hv (e' ▸ hg)
      have hmem : ∀ u, u ∈ (s.part.grp g).nodes ↔ u < c.net.n ∧ s.part.inGroup u = some g := by
        intro u
        rw [← List.mem_toFinset, (hs.part.groups g hgm).mem, mem_members]
      have hne : (s.part.grp g).nodes ≠ [] := by
        intro h0
        have := (hmem v).2 ⟨hv, hg⟩
        rw [h0] at this
        simp at this
      refine (C47_split hc.simple (hs.part.groups g hgm).nodup hne c.acc c.fuel c.Ti T (95/100) hz1).bind ?_
      rintro ⟨gs, t2⟩ ⟨hlen, hperm, hz2⟩
      dsimp only at *
      match gs, hlen, hperm with
      | [l, l2], _, hperm =>
        dsimp only
        have hnd : (l ++ l2).Nodup := by
          have := (hs.part.groups g hgm).nodup
          have h2 := hperm.nodup_iff.2 this
          simpa using h2
        have hsub : ∀ u ∈ l, s.part.inGroup u = some g := by
          intro u hu
          have : u ∈ (s.part.grp g).nodes := hperm.mem_iff.1 (by simp [hu])
          exact ((hmem u).1 this).2
        obtain ⟨hp1, hi1⟩ := moves_ok hc.simple he hge l s.part hs.part (List.nodup_append.1 hnd).1 hsub
        generalize (l.foldl (fun p v => (MoveNode c.net v g e p).2) s.part) = p1 at *
        have hf1 : Full c.net p1 := by
          intro u hu
          rw [hi1]
          dsimp only
          split_ifs
          · simp
          · exact hs.full u hu
        obtain ⟨p2, q1, q2, e0, e1, e2, e3⟩ := C24_merge hc.simple hp1 hf1 hc.deg hgm he hge
        obtain ⟨p2', e0', hp2, hi2⟩ := merge_ok hc.simple hp1 hgm he hge
        rw [e0] at e0'
        cases e0'
        have hq2 : q2 = s.energy := by
          have a1 := C24_modularity hp2 (full_merge hf1 hi2) hc.deg
          have a2 := C24_modularity hs.part hs.full hc.deg
          rw [e2] at a1
          rw [hs.energy] at a2
          have hi3 : p2.inGroup = fun u => if s.part.inGroup u = some g then some e else s.part.inGroup u := by
            rw [hi2, hi1]
            funext u
            by_cases hu : u ∈ l
            · have : ¬ e = g := fun e' => hge e'.symm
              simp [hu, hsub u hu, this]
            · simp [hu]
          rw [hi3, newman_relabel hem] at a1
          rw [← a2] at a1
          exact Option.some.inj a1
        refine (inverseMetropolis_nz hz2).bind ?_
        rintro ⟨a, t3⟩ hz3
        dsimp only at *
        cases a with
        | true =>
          rw [e0]
          exact ⟨hp2, full_merge hf1 hi2, by rw [e2, hq2], hz3⟩
        | false =>
          refine ⟨hp1, hf1, ?_, hz3⟩
          dsimp only
          rw [e1, hc.L, e3, hq2]
          congr 1; ring

/-! ## The temperature loop -/

/-- A saved partition whose modularity is `E`. -/
def BestOK (c : Cfg) (b : ℕ → Grp) (E : ℚ) : Prop :=
  ∃ p, PartOK c.net c.m p ∧ Full c.net p ∧ Modularity c.m p = some E ∧
    ∀ g < c.m, (b g).nodes = (p.grp g).nodes

/-- Invariant of the loop. -/
structure AI (c : Cfg) (a : Ann) : Prop where
  good : Good c a.s
  none : a.best = none → a.bestE = -100
  best : ∀ b, a.best = some b → BestOK c b a.bestE ∧ a.s.energy ≤ a.bestE
  count : a.count ≤ limit
  stop : a.count = limit → a.bestE ≤ a.s.energy + NC.epsMod

/-- Between the moves and the saving of the best partition the last inequality of `best` may fail. -/
structure AIm (c : Cfg) (a : Ann) : Prop where
  good : Good c a.s
  none : a.best = none → a.bestE = -100
  best : ∀ b, a.best = some b → BestOK c b a.bestE
  count : a.count ≤ limit
  stop : a.count = limit → a.bestE ≤ a.s.energy + NC.epsMod

theorem checkStop_ok {c : Cfg} (hc : c.OK) {a : Ann} (hg : Good c a.s)
    (hn : a.best = none → a.bestE = -100) (hb : ∀ b, a.best = some b → BestOK c b a.bestE)
    (hcount : a.count < limit) : (checkStop c a).Holds (AIm c) := by
  have hlim : limit = 25 := rfl
  unfold checkStop
  by_cases h1 : |a.s.energy - a.energyant| / |a.energyant| < NC.epsMod ∨ |a.energyant| < NC.epsMod
  · rw [if_pos h1]
    dsimp only
    by_cases h2 : a.count + 1 = limit ∧ a.s.energy + NC.epsMod < a.bestE
    · rw [if_pos h2]
      cases hbest : a.best with
      | none =>
        exfalso
        have := hn hbest
        have h3 := Modularity_ge hg.part hg.full hc.deg hg.energy
        rw [this] at h2
        have h4 := h2.2
        unfold NC.epsMod at h4
        linarith
      | some b =>
        dsimp only
        obtain ⟨p, hp, hf, hq, hl⟩ := hb b hbest
        have := map_of_lists (q := CopyPartition c.net c.m b a.s.part.inGroup) hc.simple hp (by
          intro g hgm
          obtain ⟨e1, e2⟩ := copy_lists c.net b a.s.part.inGroup c.m g
          rw [if_pos hgm] at e1 e2
          rw [e1, e2, hl g hgm]
          exact ⟨rfl, rfl⟩)
        obtain ⟨k1, k2⟩ := this
        have k3 : Full c.net (MapPartToNet c.net c.m (CopyPartition c.net c.m b a.s.part.inGroup)) := by
          intro u hu; rw [k2]; exact hf u hu
        refine ⟨⟨k1, k3, ?_, hg.tape⟩, ?_, ?_, by simp, ?_⟩
        · dsimp only
          rw [C24_modularity k1 k3 hc.deg, k2, ← C24_modularity hp hf hc.deg, hq]
        · intro h; cases h
        · intro b' hb'; dsimp only at hb' ⊢; exact hb b' (hbest.trans hb')
        · intro h; simp [hlim] at h
    · rw [if_neg h2]
      refine ⟨hg, hn, hb, (show a.count + 1 ≤ limit by omega), ?_⟩
      intro h
      dsimp only at h ⊢
      by_contra hcon
      exact h2 ⟨h, not_le.1 hcon⟩
  · rw [if_neg h1]
    refine ⟨hg, hn, hb, by simp, ?_⟩
    intro h; simp [hlim] at h

theorem saveBest_ok {c : Cfg} (hc : c.OK) {a : Ann} (h : AIm c a) :
    AI c (saveBest c a) ∧ (saveBest c a).best ≠ none := by
  unfold saveBest
  dsimp only
  split_ifs with h1
  · have := map_of_lists (q := { a.s.part with inGroup := (CopyPartition c.net c.m a.s.part.grp a.s.part.inGroup).inGroup })
      hc.simple h.good.part (fun g hgm => ⟨rfl, h.good.part.lists.size g hgm⟩)
    obtain ⟨k1, k2⟩ := this
    have k3 : Full c.net (MapPartToNet c.net c.m { a.s.part with inGroup := (CopyPartition c.net c.m a.s.part.grp a.s.part.inGroup).inGroup }) := by
      intro u hu; rw [k2]; exact h.good.full u hu
    refine ⟨⟨⟨k1, k3, ?_, h.good.tape⟩, ?_, ?_, h.count, ?_⟩, by simp⟩
    · dsimp only
      rw [C24_modularity k1 k3 hc.deg, k2, ← C24_modularity h.good.part h.good.full hc.deg, h.good.energy]
    · intro hh; simp at hh
    · intro b hb
      dsimp only at hb ⊢
      cases hb
      refine ⟨⟨a.s.part, h.good.part, h.good.full, h.good.energy, ?_⟩, le_refl _⟩
      intro g hgm
      have := (copy_lists c.net a.s.part.grp a.s.part.inGroup c.m g).1
      rw [if_pos hgm] at this
      exact this
    · intro _
      dsimp only
      have : (0 : ℚ) ≤ NC.epsMod := by unfold NC.epsMod; norm_num
      linarith
  · have hne : a.best ≠ none := by
      intro hbn
      have h2 := h.none hbn
      have h3 := Modularity_ge h.good.part h.good.full hc.deg h.good.energy
      rw [h2] at h1
      exact h1 (by linarith)
    exact ⟨⟨h.good, h.none, fun b hb => ⟨h.best b hb, not_lt.1 h1⟩, h.count, h.stop⟩, hne⟩

theorem anneal_ok {c : Cfg} (hc : c.OK) (k1 k2 : ℕ) (coll : Bool) (Tf Ts : ℚ) :
    ∀ (fuel : ℕ) (T : ℚ) (a : Ann), Good c a.s → (a.best = none → a.bestE = -100) →
      (∀ b, a.best = some b → BestOK c b a.bestE) → (a.best ≠ none → AI c a) →
      (a.best = none → T > Tf ∧ a.count < limit) →
      (anneal c k1 k2 coll Tf Ts fuel T a).Holds fun a' => AI c a' ∧ a'.best ≠ none
  | 0, _, _, _, _, _, _, _ => trivial
  | fuel + 1, T, a, hg, hn, hb, hAI, hgo => by
    unfold anneal
    by_cases hcond : T > Tf ∧ a.count < limit
    · rw [if_pos hcond]
      refine (iter_holds (moveStep_good hc T) k1 a.s hg).bind ?_
      intro s1 hs1
      have rest : ∀ s2, Good c s2 → Res.Holds (fun a' => AI c a' ∧ a'.best ≠ none)
          ((checkStop c { a with s := s2 }).bind fun a' =>
            anneal c k1 k2 coll Tf Ts fuel (T * Ts) (saveBest c a')) := by
        intro s2 hs2
        refine (checkStop_ok (a := { a with s := s2 }) hc hs2 hn hb hcond.2).bind ?_
        intro a' ha'
        obtain ⟨b1, b2⟩ := saveBest_ok hc ha'
        exact anneal_ok hc k1 k2 coll Tf Ts fuel _ _ b1.good b1.none (fun b hb => (b1.best b hb).1)
          (fun _ => b1) (fun h => absurd h b2)
      cases coll with
      | true =>
        simp only [if_true]
        refine (iter_holds (P := Good c) ?_ k2 s1 hs1).bind rest
        intro s hs
        exact (mergeStep_good hc T s hs).bind (splitStep_good hc T)
      | false => exact rest s1 hs1
    · rw [if_neg hcond]
      have hne : a.best ≠ none := fun h => hcond (hgo h)
      exact ⟨hAI hne, hne⟩

/-! ## The whole run -/

theorem foldl_degrees {net : Net} (h : net.Simple) :
    (List.range net.n).foldl (fun s v => s + NodeDegree net v) 0 = degSum net := by
  rw [foldl_nodes _ List.nodup_range,
    show (List.range net.n).toFinset = Finset.range net.n by ext v; simp]
  exact Finset.sum_congr rfl fun v _ => NodeDegree_eq h v

theorem randomInit_holds {net : Net} (h : net.Simple) {m : ℕ} (hm : 0 < m) : ∀ (vs : List ℕ) (p : Part)
    (t : Tape), NZ t → PartOK net m p → vs.Nodup → (∀ v ∈ vs, v < net.n ∧ p.inGroup v = none) →
    (∀ v < net.n, v ∉ vs → p.inGroup v ≠ none) →
    (randomInit net m vs p t).Holds fun r => PartOK net m r.1 ∧ Full net r.1 ∧ NZ r.2
  | [], p, t, hz, hp, _, _, hf => ⟨hp, fun v hv => hf v hv (by simp), hz⟩
  | v :: vs, p, t, hz, hp, hnd, hv, hf => by
    unfold randomInit
    refine (pick_all hm hz).bind ?_
    rintro ⟨des, t'⟩ ⟨hd, hz'⟩
    dsimp only at *
    rw [if_pos hd]
    rw [List.nodup_cons] at hnd
    obtain ⟨hvn, hvf⟩ := hv v (by simp)
    apply randomInit_holds h hm vs _ _ hz' (add_ok h hp hvn hd hvf) hnd.2
    · intro u hu
      refine ⟨(hv u (by simp [hu])).1, ?_⟩
      have : u ≠ v := fun e => hnd.1 (e ▸ hu)
      simp only [AddNodeToGroup, Function.update_of_ne this]
      exact (hv u (by simp [hu])).2
    · intro u hu hu'
      simp only [AddNodeToGroup]
      by_cases e : u = v
      · subst e; simp
      · rw [Function.update_of_ne e]; exact hf u hu (by simp [e, hu'])

theorem oneInit_ok {net : Net} (h : net.Simple) : ∀ (k : ℕ), k ≤ net.n →
    PartOK net net.n ((List.range k).foldl (fun p v => AddNodeToGroup net v v p) Part.empty) ∧
    ((List.range k).foldl (fun p v => AddNodeToGroup net v v p) Part.empty).inGroup =
      fun u => if u < k then some u else none
  | 0, _ => ⟨empty_ok _ _, by simp [Part.empty]⟩
  | k + 1, hk => by
    obtain ⟨h1, h2⟩ := oneInit_ok h k (by omega)
    rw [List.range_succ, List.foldl_append, List.foldl_cons, List.foldl_nil]
    refine ⟨add_ok h h1 (by omega) (by omega) (by rw [h2]; simp), ?_⟩
    generalize (List.range k).foldl (fun p v => AddNodeToGroup net v v p) Part.empty = q at *
    simp only [AddNodeToGroup]
    rw [h2]
    funext u
    by_cases e : u = k
    · subst e; simp
    · rw [Function.update_of_ne e]
      have : u < k ↔ u < k + 1 := by omega
      simp only [this]

/-- With final temperature 0 the loop ends only when nothing has changed for a while. -/
theorem anneal_count {c : Cfg} (k1 k2 : ℕ) (coll : Bool) {Ts : ℚ} (hs : 0 < Ts) : ∀ (fuel : ℕ) (T : ℚ) (a a' : Ann), 0 < T →
    anneal c k1 k2 coll 0 Ts fuel T a = .ok a' → limit ≤ a'.count
  | 0, _, _, _, _, h => by cases h
  | fuel + 1, T, a, a', hT, h => by
    unfold anneal at h
    by_cases hc : T > 0 ∧ a.count < limit
    · rw [if_pos hc] at h
      have inv : ∀ {α β : Type} {x : Res α} {f : α → Res β} {b : β}, (x >>= f) = .ok b → ∃ a, x = .ok a ∧ f a = .ok b := by
        intro α β x f b h
        cases x with
        | ok a => exact ⟨a, rfl, h⟩
        | starved => cases h
        | ub => cases h
      obtain ⟨s1, -, h⟩ := inv h
      have h : ∃ s2, ((checkStop c { a with s := s2 }) >>= fun a =>
          anneal c k1 k2 coll 0 Ts fuel (T * Ts) (saveBest c a)) = Res.ok a' := by
        cases coll with
        | true => obtain ⟨s2, -, h⟩ := inv h; exact ⟨s2, h⟩
        | false => exact ⟨s1, h⟩
      obtain ⟨s2, h⟩ := h
      obtain ⟨a1, -, h⟩ := inv h
      exact anneal_count k1 k2 coll hs fuel _ _ _ (by positivity) h
    · rw [if_neg hc] at h
      cases h
      by_contra hlt
      exact hc ⟨hT, by omega⟩

/-- What is known of a run; see C48 below. -/
theorem run_all {net : Net} (h : net.Simple) (hdeg : degSum net ≠ 0) (acc accInv : ℚ → ℚ → ℚ → Bool)
    (fuel : ℕ) {Ti Tf : ℚ} (hT : Ti > Tf) (Ts fac : ℚ) (ngroup : ℕ) (init : Init)
    (hm : init = .random → 0 < ngroup) (coll : Bool) {t : Tape} (hz : NZ t) :
    (SACommunityIdent acc accInv fuel net Ti Tf Ts fac ngroup init coll t).Holds fun o =>
      (PartOK net o.m o.part ∧ Full net o.part ∧
      Modularity o.m o.part = some o.energy ∧ o.energy = newman net o.part.inGroup ∧
      (∀ v < net.n, ∃! g, g ∈ o.labels ∧ v ∈ (o.part.grp g).nodes) ∧
      o.energy ≤ o.bestE ∧ (o.count = 25 → o.bestE ≤ o.energy + 1 / 1000000)) ∧
      o.m = nGroups net ngroup init ∧ NZ o.tape ∧ o.count ≤ 25 ∧ (Tf = 0 → 0 < Ts → o.count = 25) := by
  have hnpos : 0 < net.n := by
    by_contra h0
    have h0 : net.n = 0 := by omega
    apply hdeg; unfold degSum; rw [h0]; simp
  unfold SACommunityIdent
  dsimp only
  rw [foldl_degrees h]
  generalize hmm : nGroups net ngroup init = m
  have hmpos : 0 < m := by
    cases init with
    | one => subst hmm; exact hnpos
    | random => subst hmm; exact hm rfl
  refine Res.Holds.bind (P := fun r : Part × Tape => PartOK net m r.1 ∧ Full net r.1 ∧ NZ r.2) ?_ ?_
  · cases init with
    | one =>
      subst hmm
      obtain ⟨h1, h2⟩ := oneInit_ok h net.n (le_refl _)
      refine ⟨h1, ?_, hz⟩
      intro v hv
      rw [h2]; simp [hv]
    | random =>
      subst hmm
      exact randomInit_holds h hmpos (List.range net.n) Part.empty t hz (empty_ok _ _) List.nodup_range
        (fun v hv => ⟨List.mem_range.1 hv, rfl⟩) (fun v hv hv' => absurd (List.mem_range.2 hv) hv')
  rintro ⟨p, t1⟩ ⟨hp, hf, hz1⟩
  dsimp only at *
  rw [Modularity_eq hp hf hdeg]
  simp only [Res.ofOption_some, Res.bind_ok]
  generalize hcc : ({ net := net, m := m, L := (degSum net : ℚ), acc := acc, accInv := accInv, fuel := fuel, Ti := Ti } : Cfg) = c
  have e1 : c.net = net := by rw [← hcc]
  have e2 : c.m = m := by rw [← hcc]
  have hc : c.OK := by
    subst hcc; exact ⟨h, hdeg, rfl, hmpos⟩
  have hcnt : ∀ (a0 a' : Ann), anneal c (cicles fac net.n).1 (cicles fac net.n).2 coll Tf Ts fuel Ti a0 = .ok a' →
      Tf = 0 → 0 < Ts → limit ≤ a'.count := by
    intro a0 a' e e0 hs
    subst e0
    exact anneal_count _ _ coll hs fuel Ti a0 a' hT e
  have hreason : ∀ a0 : Ann, (anneal c (cicles fac net.n).1 (cicles fac net.n).2 coll Tf Ts fuel Ti a0).Holds
      (fun a' => AI c a' ∧ a'.best ≠ none) → (anneal c (cicles fac net.n).1 (cicles fac net.n).2 coll Tf Ts fuel Ti a0).Holds
      (fun a' => (AI c a' ∧ a'.best ≠ none) ∧ (Tf = 0 → 0 < Ts → limit ≤ a'.count)) := by
    intro a0 hh
    have := hcnt a0
    revert hh this
    cases anneal c (cicles fac net.n).1 (cicles fac net.n).2 coll Tf Ts fuel Ti a0 with
    | ok a' => intro hh this; exact ⟨hh, this a' rfl⟩
    | starved => intro _ _; trivial
    | ub => intro hh _; exact hh
  refine (hreason _ (anneal_ok hc _ _ coll Tf Ts fuel Ti _ ?_ (fun _ => rfl) (fun b hb => by simp at hb)
    (fun hh => absurd rfl hh) (fun _ => ⟨hT, (by decide : 0 < limit)⟩))).bind ?_
  · subst hcc
    exact ⟨hp, hf, Modularity_eq hp hf hdeg, hz1⟩
  rintro a ⟨⟨hA, hne⟩, hlim⟩
  cases hb : a.best with
  | none => exact absurd hb hne
  | some b =>
    dsimp only
    have hgood := hA.good
    have hpart : PartOK net m a.s.part := by rw [← e1, ← e2]; exact hgood.part
    have hfull : Full net a.s.part := by rw [← e1]; exact hgood.full
    have hen : Modularity m a.s.part = some a.s.energy := by rw [← e2]; exact hgood.energy
    refine ⟨⟨hpart, hfull, hen, ?_, ?_, (hA.best b hb).2, hA.stop⟩, rfl, hgood.tape, hA.count,
      fun e0 hs => le_antisymm hA.count (hlim e0 hs)⟩
    · have := C24_modularity hpart hfull hdeg
      rw [hen] at this
      exact Option.some.inj this
    · intro v hv
      obtain ⟨g, hg⟩ := Option.ne_none_iff_exists'.1 (hfull v hv)
      have hgm := (hpart.range v g hg).2
      have hmem : ∀ g < m, (v ∈ (a.s.part.grp g).nodes ↔ a.s.part.inGroup v = some g) := by
        intro g hgm
        rw [← List.mem_toFinset, (hpart.groups g hgm).mem, mem_members]
        simp [hv]
      refine ⟨g, ⟨?_, (hmem g hgm).2 hg⟩, ?_⟩
      · unfold Outcome.labels
        rw [List.mem_filter]
        refine ⟨List.mem_range.2 hgm, ?_⟩
        dsimp only
        rw [hpart.lists.size g hgm]
        have := List.length_pos_of_mem ((hmem g hgm).2 hg)
        simp only [ne_eq, decide_not, Bool.not_eq_eq_eq_not, Bool.not_true, decide_eq_false_iff_not]
        omega
      · rintro g' ⟨h1, h2⟩
        unfold Outcome.labels at h1
        have h3 := List.mem_range.1 (List.mem_filter.1 h1).1
        have := (hmem g' h3).1 h2
        rw [hg] at this
        exact (Option.some.inj this).symm

/-- **C24/C48**: for every simple network with a link, temperatures `Ti > Tf`, positive number of
groups, switches, decision functions and stream of random numbers without 0, a run of
`SACommunityIdent` has no undefined behaviour, and if it returns
* the groups divide the nodes, and all their counters are right;
* the energy summed up during the run is exactly the modularity of the returned partition;
* this is at most the best energy seen, and if the run stopped because nothing changed any more, it
  is within the tolerance of the best. -/
theorem C48_run {net : Net} (h : net.Simple) (hdeg : degSum net ≠ 0) (acc accInv : ℚ → ℚ → ℚ → Bool)
    (fuel : ℕ) {Ti Tf : ℚ} (hT : Ti > Tf) (Ts fac : ℚ) (ngroup : ℕ) (init : Init)
    (hm : init = .random → 0 < ngroup) (coll : Bool) {t : Tape} (hz : NZ t) :
    (SACommunityIdent acc accInv fuel net Ti Tf Ts fac ngroup init coll t).Holds fun o =>
      PartOK net o.m o.part ∧ Full net o.part ∧
      Modularity o.m o.part = some o.energy ∧ o.energy = newman net o.part.inGroup ∧
      (∀ v < net.n, ∃! g, g ∈ o.labels ∧ v ∈ (o.part.grp g).nodes) ∧
      o.energy ≤ o.bestE ∧ (o.count = 25 → o.bestE ≤ o.energy + 1 / 1000000) :=
  (run_all h hdeg acc accInv fuel hT Ts fac ngroup init hm coll hz).mono fun _ ho => ho.1

/-- **C48**: with final temperature 0 and a positive cooling factor, a run that returns has stopped because nothing changed any
more, so that the modularity of the partition returned is within the tolerance of the best one seen. -/
theorem C48_to_zero {net : Net} (h : net.Simple) (hdeg : degSum net ≠ 0) (acc accInv : ℚ → ℚ → ℚ → Bool)
    (fuel : ℕ) {Ti Ts : ℚ} (hT : 0 < Ti) (hs : 0 < Ts) (fac : ℚ) (ngroup : ℕ) (init : Init)
    (hm : init = .random → 0 < ngroup) (coll : Bool) {t : Tape} (hz : NZ t) :
    (SACommunityIdent acc accInv fuel net Ti 0 Ts fac ngroup init coll t).Holds fun o =>
      o.count = 25 ∧ o.energy ≤ o.bestE ∧ o.bestE ≤ o.energy + 1 / 1000000 :=
  (run_all h hdeg acc accInv fuel hT Ts fac ngroup init hm coll hz).mono fun _ ho =>
    ⟨ho.2.2.2.2 rfl hs, ho.1.2.2.2.2.2.1, ho.1.2.2.2.2.2.2 (ho.2.2.2.2 rfl hs)⟩

/-- **C48, refutation**: with `Ti ≤ Tf` no best partition is saved, and the final `RemovePartition`
dereferences NULL. -/
theorem C48_cold_start {net : Net} (acc accInv : ℚ → ℚ → ℚ → Bool)
    (fuel : ℕ) {Ti Tf : ℚ} (hT : Ti ≤ Tf) (Ts fac : ℚ) (ngroup : ℕ) (coll : Bool) (t : Tape) :
    SACommunityIdent acc accInv (fuel + 1) net Ti Tf Ts fac ngroup .one coll t = .ub := by
  unfold SACommunityIdent
  simp only [Res.bind_ok, initial, nGroups]
  cases Modularity net.n ((List.range net.n).foldl (fun p v => AddNodeToGroup net v v p) Part.empty) with
  | none => rfl
  | some q =>
    simp only [Res.ofOption_some, Res.bind_ok]
    unfold anneal
    rw [if_neg (by intro hh; exact absurd hh.1 (not_lt.2 hT))]
    rfl

/-- A redraw that can only give the forbidden value does not end. -/
theorem redraw_forever {f : ℚ → ℕ} {bad : ℕ → Bool} (h : ∀ u, 0 ≤ u → u < 1 → bad (f u) = true) (t : Tape) :
    redraw f bad t = .starved := by
  induction t with
  | nil => rfl
  | cons u t ih =>
    unfold redraw
    split_ifs with h1 h2
    · exact ih
    · exact absurd (h u h1.1 h1.2) h2
    · rfl

theorem cicles_pos (fac : ℚ) (n : ℕ) : 0 < (cicles fac n).1 := by
  unfold cicles
  dsimp only
  split_ifs with h
  · decide
  · exact Nat.floor_pos.2 (by linarith [not_lt.1 h])

/-- **C48, refutation**: with one group the function never returns, whatever the random numbers. -/
theorem C48_one_group {net : Net} (h : net.Simple) (hdeg : degSum net ≠ 0) (acc accInv : ℚ → ℚ → ℚ → Bool)
    (fuel : ℕ) {Ti Tf : ℚ} (hT : Ti > Tf) (Ts fac : ℚ) (coll : Bool) {t : Tape} (hz : NZ t) :
    (SACommunityIdent acc accInv fuel net Ti Tf Ts fac 1 .random coll t).Holds fun _ => False := by
  unfold SACommunityIdent
  dsimp only [initial, nGroups]
  refine (randomInit_holds h (m := 1) (by decide) (List.range net.n) Part.empty t hz (empty_ok _ _)
    List.nodup_range (fun v hv => ⟨List.mem_range.1 hv, rfl⟩)
    (fun v hv hv' => absurd (List.mem_range.2 hv) hv')).bind ?_
  rintro ⟨p, t1⟩ ⟨hp, hf, hz1⟩
  dsimp only at *
  have hnpos : 0 < net.n := by
    by_contra h0
    have h0 : net.n = 0 := by omega
    apply hdeg; unfold degSum; rw [h0]; simp
  rw [Modularity_eq hp hf hdeg]
  simp only [Res.ofOption_some, Res.bind_ok]
  refine Res.Holds.bind (P := fun _ => False) ?_ (fun _ h => h.elim)
  cases fuel with
  | zero => trivial
  | succ fuel =>
    unfold anneal
    rw [if_pos ⟨hT, (by decide : 0 < limit)⟩]
    refine Res.Holds.bind (P := fun _ => False) ?_ (fun _ h => h.elim)
    obtain ⟨k, hk⟩ := Nat.exists_eq_succ_of_ne_zero (cicles_pos fac net.n).ne'
    rw [hk]
    unfold iter
    refine Res.Holds.bind (P := fun _ => False) ?_ (fun _ h => h.elim)
    unfold moveStep
    refine (pick_all hnpos hz1).bind ?_
    rintro ⟨v, t2⟩ ⟨hv, _⟩
    dsimp only at *
    cases hg : p.inGroup v with
    | none => exact absurd hg (hf v hv)
    | some old =>
      have : old = 0 := by have := (hp.range v old hg).2; omega
      subst this
      dsimp only
      rw [redraw_forever]
      · trivial
      · intro u h0 h1
        simp only [Nat.cast_one, mul_one, decide_eq_true_eq]
        rw [Nat.floor_eq_zero]; exact h1

/-- Two linked nodes. -/
def pair : Net :=
  { n := 2, neig := fun v => match v with | 0 => [(1, 1)] | 1 => [(0, 1)] | _ => [] }

/-- **C48, refutation**: the partition returned when the final temperature is reached need not be the
best one seen. Two temperatures, ten proposals each: after the first ten the two nodes are together
(modularity 0), after the next ten apart (-1/2); the latter is returned. The decision function used is
in agreement with `u < exp(dE/T)` on all arguments that occur (`dE = -1/2`, `T` 1 or 0.6, `u` 3/4 or
1/1000). -/
theorem C48_worse_than_best :
    (match SACommunityIdent (fun _ _ u => decide (u < 1/100)) (fun _ _ _ => true) 3 pair 1 (1/2) (6/10) 1 2
        .random false
        ([1/4, 3/4] ++ [1/4, 3/4] ++ (List.replicate 9 [1/4, 1/4, 3/4]).flatten ++
          (List.replicate 9 [1/4, 1/4, 3/4]).flatten ++ [1/4, 1/4, 1/1000]) with
      | .ok o => decide (o.energy < o.bestE ∧ o.energy = -1/2 ∧ o.bestE = 0)
      | _ => false) = true := by decide +kernel

/-- **C48** (when a run stops): a turn in which the energy has not changed adds 1 to the counter unless
the counter reaches 25 with an energy below the best by more than the tolerance; then the run goes on
from the best partition with its energy and counter 0. A turn in which the energy has changed sets the
counter to 0. -/
theorem C48_patience (c : Cfg) (a : Ann) :
    ((|a.s.energy - a.energyant| / |a.energyant| < 1 / 1000000 ∨ |a.energyant| < 1 / 1000000) →
      ((a.count + 1 ≠ 25 ∨ a.bestE ≤ a.s.energy + 1 / 1000000) →
        checkStop c a = .ok { a with count := a.count + 1 }) ∧
      (a.count + 1 = 25 → a.s.energy + 1 / 1000000 < a.bestE → ∀ b, a.best = some b →
        (checkStop c a).Holds fun a' => a'.count = 0 ∧ a'.s.energy = a.bestE)) ∧
    (¬ (|a.s.energy - a.energyant| / |a.energyant| < 1 / 1000000 ∨ |a.energyant| < 1 / 1000000) →
      checkStop c a = .ok { a with count := 0 }) := by
  have e : NC.epsMod = 1 / 1000000 := rfl
  refine ⟨fun h => ⟨fun h1 => ?_, fun h1 h2 b hb => ?_⟩, fun h => ?_⟩
  · unfold checkStop
    rw [e, if_pos h]
    dsimp only
    rw [if_neg]
    rintro ⟨h2, h3⟩
    rcases h1 with h1 | h1
    · exact h1 h2
    · exact absurd h3 (not_lt.2 h1)
  · unfold checkStop
    rw [e, if_pos h]
    dsimp only
    rw [if_pos ⟨h1, h2⟩, hb]
    exact ⟨rfl, rfl⟩
  · unfold checkStop
    rw [e, if_neg h]

/-- **C48** (when a split is undone): a split that does not lower the modularity (merging the halves would not
raise it) is kept without drawing a random number; otherwise one number is drawn. -/
theorem C48_split_rule (acc : ℚ → ℚ → ℚ → Bool) (dE T : ℚ) (t : Tape) :
    (dE ≤ 0 → inverseMetropolis acc dE T t = .ok (false, t)) ∧
    (0 < dE → ∀ u t', draw t = .ok (u, t') → inverseMetropolis acc dE T t = .ok (acc dE T u, t')) := by
  refine ⟨fun h => ?_, fun h u t' e => ?_⟩
  · unfold inverseMetropolis
    rw [if_neg (not_lt.2 h)]
  · unfold inverseMetropolis
    rw [if_pos h, e]
    rfl

/-- A run that stops after 25 turns without a change. -/
example :
    (match SACommunityIdent (fun _ _ u => decide (u < 1/100)) (fun _ _ _ => true) 40 pair 1 0 (1/2) 1 2
        .random false
        ([1/4, 3/4] ++ [1/4, 3/4] ++ (List.replicate 400 [1/4, 1/4, 3/4]).flatten) with
      | .ok o => decide (o.energy = 0 ∧ o.bestE = 0 ∧ o.count = 25)
      | _ => false) = true := by decide +kernel

end GP
