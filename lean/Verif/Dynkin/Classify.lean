import Verif.Dynkin.Sound

/-! The classification of a component. -/

namespace Verif.Dynkin

open Verif.Weyl (Ty)

variable {n : ℕ} {c : ℕ → ℕ → Int} {d : Diagram} {S : List ℕ}

theorem classifyComp_big (nd : Bool) (c : ℕ → ℕ → Int) (d : Diagram) {S : List ℕ}
    (h : 2 < S.length) :
    classifyComp nd c d S = (degrees d S none [] >>= fun p =>
      if p.2.length < 2 then .throw
      else labels S d.down none >>= fun edge =>
        typeOf d p.2 p.1 edge >>= fun ty =>
          startOf nd d S p.2 p.1 edge ty >>= fun q =>
            walk nd d ty p.1 (S.length + 1) q.1 q.2.1 q.2.2 >>= fun pos => .ok (ty, pos)) := by
  unfold classifyComp
  rw [if_neg (by omega)]

theorem startOf_E (nd : Bool) (d : Diagram) (S ext : List ℕ) (f : ℕ) :
    startOf nd d S ext (some f) none .E = if S.length > 8 then .throw else
      (Res.assertIn nd (decide ((inter ext (d.nbrs f)).length = 1)) >>= fun _ =>
      firstBit (diff ext (inter ext (d.nbrs f))) >>= fun s0 =>
      (if (inter (d.nbrs s0) (d.nbrs f)).isEmpty then
          firstBit (diff (diff ext (inter ext (d.nbrs f))) [s0]) else .ok s0) >>= fun s =>
      if (inter (d.nbrs s) (d.nbrs f)).isEmpty then .throw
      else firstBit (inter ext (d.nbrs f)) >>= fun a =>
        firstBit (inter (d.nbrs s) (d.nbrs f)) >>= fun u =>
          .ok (u, diff (diff S [s]) (inter ext (d.nbrs f)), [s, a])) := rfl

theorem startOf_D (nd : Bool) (d : Diagram) (S ext : List ℕ) (f : ℕ) :
    startOf nd d S ext (some f) none .D =
      if S.length = 4 then (firstBit ext >>= fun s => .ok (s, S, []))
      else if (diff ext (d.nbrs f)).length > 1 then .throw
      else (Res.assertIn nd (decide ((diff ext (d.nbrs f)).length = 1)) >>= fun _ =>
        firstBit (diff ext (d.nbrs f)) >>= fun s => .ok (s, S, [])) := rfl

theorem firstBit_mem {l : List ℕ} (h : l ≠ []) : ∃ x ∈ l, firstBit l = .ok x := by
  cases l with
  | nil => exact absurd rfl h
  | cons a l => exact ⟨a, by simp, rfl⟩

/-- the outcome for a component -/
def Outcome (c : ℕ → ℕ → Int) (S : List ℕ) (r : Res (Ty × List ℕ)) : Prop :=
  (∃ ty pos, r = .ok (ty, pos) ∧ Fits c S ty pos) ∨ (r = .throw ∧ ∀ ty pos, ¬ Fits c S ty pos)

theorem Piece.no_labels (hP : Piece n c d S) (h : ∀ x ∈ d.down, x.1.1 ∉ S) : Plain c S := by
  intro x hx y hy hne hlt
  exact h ((x, y), -c x y) (hP.good.mem_down.2 ⟨hP.lt x hx, hP.lt y hy, hne, hlt, rfl⟩) hx

theorem Piece.one_label (hP : Piece n c d S) {x : (ℕ × ℕ) × Int} (hx : x ∈ d.down) (hS : x.1.1 ∈ S)
    (h3 : ∀ y ∈ d.down, y.1.1 ∈ S → y.2 ≠ 3) (h : ∀ y ∈ d.down, y.1.1 ∈ S → y = x) :
    Single c S x.1.1 x.1.2 := by
  obtain ⟨⟨u, l⟩, m⟩ := x
  obtain ⟨a1, a2, a3, a4⟩ := hP.label hx hS
  have := h3 _ hx hS
  have hc := hP.good.pre u a4.1 l a4.2.1
  unfold Cond at hc
  rw [if_neg a4.2.2.1] at hc
  dsimp only at *
  refine ⟨hS, a1, by omega, ?_⟩
  intro y hy z hz hne hlt
  have := h ((y, z), -c y z) (hP.good.mem_down.2 ⟨hP.lt y hy, hP.lt z hz, hne, hlt, rfl⟩) hy
  simp at this
  exact this.1

/-- a component of rank more than 2 -/
theorem classify_big (nd : Bool) (hP : Piece n c d S) (h2 : 2 < S.length) :
    Outcome c S (classifyComp nd c d S) := by
  rw [classifyComp_big nd c d h2]
  rcases degrees_spec d S none [] with ⟨fork, k1, k2, k3⟩ | ⟨k1, k2⟩
  swap
  · right
    refine ⟨by rw [k1]; rfl, ?_⟩
    intro ty pos hF
    rcases k2 with ⟨i, hi, h⟩ | ⟨h, _⟩ | h | ⟨i, hi, j, hj, hne, h, h'⟩
    · exact hF.no4 hP hi h
    · exact h rfl
    · exact h hP.nodup
    · exact hne (hF.no33 hP hi hj h h')
  rw [List.nil_append] at k1
  rw [k1, Res.ok_bind]
  set ext := S.filter (fun i => decide ((d.nbrs i).length < 2)) with hext
  have hme : ∀ {x}, x ∈ ext ↔ x ∈ S ∧ (d.nbrs x).length < 2 := mem_ext
  have hen : ext.Nodup := hP.nodup.filter _
  dsimp only
  by_cases he : ext.length < 2
  · rw [if_pos he]
    exact Or.inr ⟨rfl, fun ty pos hF => hF.ext2 hP h2 he⟩
  rw [if_neg he]
  rcases labels_spec S d.down none hP.good.down_nodup with ⟨edge, m1, m2, m3⟩ | ⟨m1, m2⟩
  swap
  · right
    refine ⟨by rw [m1]; rfl, ?_⟩
    intro ty pos hF
    rcases m2 with ⟨x, hx, h, h'⟩ | ⟨h, _⟩ | ⟨x, hx, y, hy, hne, h, h'⟩
    · exact hF.lab3 hP h2 x hx h h'
    · exact h rfl
    · exact hne (hF.lab2 hP x hx y hy h h')
  rw [m1, Res.ok_bind]
  have hne1 : ext ≠ [] := by intro e; rw [e] at he; simp at he
  -- removing one extremity leaves another
  have hrem : ∀ x, diff ext [x] ≠ [] := by
    intro x e
    have : ∀ y ∈ ext, y = x := by
      intro y hy
      by_contra hyx
      have : y ∈ diff ext [x] := mem_diff.2 ⟨hy, by simpa using hyx⟩
      rw [e] at this; simp at this
    have := length_le_one hen (fun a ha b hb => by rw [this a ha, this b hb])
    omega
  rcases k3 with ⟨rfl, k4⟩ | ⟨-, f, hf, rfl, hf3, k4⟩
  · -- no fork
    have hle2 : ∀ x ∈ S, (d.nbrs x).length ≤ 2 := fun x hx => by
      have := k2 x hx
      have := k4 x hx
      omega
    rcases m3 with ⟨rfl, m4⟩ | ⟨-, x, hx, hxS, rfl, m4⟩
    · -- type A
      have hl := hP.no_labels m4
      obtain ⟨s, hs, es⟩ := firstBit_mem hne1
      obtain ⟨w, a, b⟩ := hP.soundA h2 hle2 hl (hme.1 hs).1 (hme.1 hs).2 nd none
      left
      refine ⟨.A, w, ?_, b⟩
      rw [show typeOf d ext none none = .ok .A from rfl, Res.ok_bind]
      rw [show startOf nd d S ext none none .A = (firstBit ext >>= fun s => .ok (s, S, [])) from rfl,
        es, Res.ok_bind, Res.ok_bind]
      dsimp only
      rw [a, Res.ok_bind]
    · obtain ⟨⟨u, l⟩, m⟩ := x
      have hl := hP.one_label hx hxS m2 m4
      dsimp only at hl hxS m4 ⊢
      have hty : typeOf d ext none (some (u, l)) =
        .ok (if l ∈ ext then .B else if u ∈ ext then .C else .F) := rfl
      rw [hty, Res.ok_bind]
      by_cases e1 : l ∈ ext
      · -- type B
        rw [if_pos e1]
        obtain ⟨s, hs, es⟩ := firstBit_mem (hrem l)
        rw [mem_diff] at hs
        obtain ⟨w, a, b⟩ := hP.soundB h2 hle2 hl (hme.1 hs.1).1 (hme.1 hs.1).2 (hme.1 e1).2
          (by simpa using hs.2) nd none
        left
        refine ⟨.B, w, ?_, b⟩
        rw [show startOf nd d S ext none (some (u, l)) .B =
          (firstBit (diff ext [l]) >>= fun s => .ok (s, S, [])) from rfl, es, Res.ok_bind, Res.ok_bind]
        dsimp only
        rw [a, Res.ok_bind]
      · rw [if_neg e1]
        by_cases e2 : u ∈ ext
        · -- type C
          rw [if_pos e2]
          obtain ⟨s, hs, es⟩ := firstBit_mem (hrem u)
          rw [mem_diff] at hs
          obtain ⟨w, a, b⟩ := hP.soundC h2 hle2 hl (hme.1 hs.1).1 (hme.1 hs.1).2 (hme.1 e2).2
            (by simpa using hs.2) nd none
          left
          refine ⟨.C, w, ?_, b⟩
          rw [show startOf nd d S ext none (some (u, l)) .C =
            (firstBit (diff ext [u]) >>= fun s => .ok (s, S, [])) from rfl, es, Res.ok_bind,
            Res.ok_bind]
          dsimp only
          rw [a, Res.ok_bind]
        · -- type F
          rw [if_neg e2]
          have hu1 : ¬ (d.nbrs u).length < 2 := fun h => e2 (hme.2 ⟨hl.1, h⟩)
          have hl1 : ¬ (d.nbrs l).length < 2 := fun h => e1 (hme.2 ⟨hl.2.1, h⟩)
          have hst : startOf nd d S ext none (some (u, l)) .F = if S.length > 4 then .throw
            else (firstBit (diff ext (d.nbrs l)) >>= fun s => .ok (s, S, [])) := rfl
          rw [hst]
          by_cases h4 : S.length > 4
          · rw [if_pos h4]
            refine Or.inr ⟨rfl, ?_⟩
            intro ty pos hF
            have := hF.caseF hP h2 hl.1 hl.2.1 (by rw [hl.2.2.1]; decide) hu1 hl1
            omega
          · rw [if_neg h4]
            obtain ⟨x0, hx0⟩ := List.exists_mem_of_ne_nil _ hne1
            obtain ⟨z, hz, hz1, hz2⟩ := hP.startF h2 (by omega) hle2 hl hu1 hl1 (hme.1 hx0).1
              (hme.1 hx0).2
            obtain ⟨s, hs, es⟩ := firstBit_mem (l := diff ext (d.nbrs l)) (by
              intro e
              have : z ∈ diff ext (d.nbrs l) := mem_diff.2 ⟨hme.2 ⟨hz, hz1⟩, by
                rw [hP.good.mem_nbrs]; exact hz2⟩
              rw [e] at this; simp at this)
            rw [mem_diff, hP.good.mem_nbrs] at hs
            obtain ⟨w, a, b⟩ := hP.soundF h2 (by omega) hle2 hl hu1 hl1 (hme.1 hs.1).1 (hme.1 hs.1).2
              hs.2 nd none
            left
            refine ⟨.F, w, ?_, b⟩
            rw [es, Res.ok_bind, Res.ok_bind]
            dsimp only
            rw [a, Res.ok_bind]
  · -- a fork
    have ho : ∀ x ∈ S, x ≠ f → (d.nbrs x).length ≤ 2 := fun x hx hxf => by
      have := k2 x hx
      have : (d.nbrs x).length ≠ 3 := fun h => hxf (k4 x hx h)
      omega
    rcases m3 with ⟨rfl, m4⟩ | ⟨-, x, hx, hxS, rfl, m4⟩
    swap
    · refine Or.inr ⟨rfl, ?_⟩
      intro ty pos hF
      exact hF.forkLabel hP hf hf3 x hx hxS
    have hl := hP.no_labels m4
    have hty : typeOf d ext (some f) none =
      .ok (if (inter (d.nbrs f) ext).length = 1 then .E else .D) := rfl
    rw [hty, Res.ok_bind]
    have fne : ∀ {x}, x ∈ ext → x ≠ f := by
      intro x hx e
      have := (hme.1 hx).2
      rw [e] at this
      omega
    by_cases h1 : (inter (d.nbrs f) ext).length = 1
    · -- type E
      rw [if_pos h1]
      rw [startOf_E]
      by_cases h8 : S.length > 8
      · rw [if_pos h8]
        refine Or.inr ⟨rfl, ?_⟩
        intro ty pos hF
        have := (hF.caseE hP hf hf3 h1).1
        omega
      rw [if_neg h8]
      obtain ⟨a, ha⟩ := List.length_eq_one_iff.1 h1
      have hma : ∀ x, x ∈ ext ∧ AdjN n c f x ↔ x = a := by
        intro x
        have : x ∈ inter (d.nbrs f) ext ↔ x = a := by rw [ha]; simp
        rw [← this, mem_inter, hP.good.mem_nbrs]
        exact and_comm
      have hsh : inter ext (d.nbrs f) = [a] := by
        have hl1 : (inter ext (d.nbrs f)).length = 1 := length_eq_one (x := a) (hen.filter _) (by
          intro y; rw [mem_inter, hP.good.mem_nbrs, hma])
        obtain ⟨b, hb⟩ := List.length_eq_one_iff.1 hl1
        have : a ∈ inter ext (d.nbrs f) := by
          rw [mem_inter, hP.good.mem_nbrs, hma]
        rw [hb] at this ⊢
        simp at this; rw [this]
      obtain ⟨hae, haf⟩ := (hma a).2 rfl
      rw [hsh, Res.assertIn_bind nd (by simp)]
      obtain ⟨s0, hs0, es0⟩ := firstBit_mem (hrem a)
      rw [es0, Res.ok_bind]
      rw [mem_diff] at hs0
      have hs0a : s0 ≠ a := by simpa using hs0.2
      -- the final choice
      have hfin : ∃ s ∈ ext, s ≠ a ∧ (if (inter (d.nbrs s0) (d.nbrs f)).isEmpty then
          firstBit (diff (diff ext [a]) [s0]) else .ok s0) = .ok s ∧
          ((inter (d.nbrs s0) (d.nbrs f)).isEmpty = true → s ≠ s0) ∧
          ((inter (d.nbrs s0) (d.nbrs f)).isEmpty = false → s = s0) := by
        by_cases e : (inter (d.nbrs s0) (d.nbrs f)).isEmpty = true
        · rw [if_pos e]
          obtain ⟨z, hz, z1, z2, z3, z4⟩ := hP.third hf hf3 ho (hme.1 hae).1 (hme.1 hs0.1).1 hs0a
            (hme.1 hae).2 (hme.1 hs0.1).2 haf
          obtain ⟨s, hs, es⟩ := firstBit_mem (l := diff (diff ext [a]) [s0]) (by
            intro e
            have : z ∈ diff (diff ext [a]) [s0] := mem_diff.2 ⟨mem_diff.2 ⟨hme.2 ⟨hz, z4⟩, by
              simpa using z1⟩, by simpa using z2⟩
            rw [e] at this; simp at this)
          rw [mem_diff, mem_diff] at hs
          exact ⟨s, hs.1.1, by simpa using hs.1.2, es, fun _ => by simpa using hs.2,
            fun h => by rw [e] at h; cases h⟩
        · rw [if_neg e]
          exact ⟨s0, hs0.1, hs0a, rfl, fun h => absurd h e, fun _ => rfl⟩
      obtain ⟨s, hs, hsa, es, hss, hss'⟩ := hfin
      rw [es, Res.ok_bind]
      by_cases e : (inter (d.nbrs s) (d.nbrs f)).isEmpty = true
      · rw [if_pos e]
        refine Or.inr ⟨rfl, ?_⟩
        intro ty pos hF
        obtain ⟨-, t0, t1, ht⟩ := hF.caseE hP hf hf3 h1
        have nof : ∀ x ∈ ext, x ≠ a → ¬ AdjN n c f x := fun x hx hxa h => hxa ((hma x).1 ⟨hx, h⟩)
        have hsne : (inter (d.nbrs s0) (d.nbrs f)).isEmpty = true := by
          by_contra h
          have h := Bool.eq_false_iff.2 h
          rw [← hss' h, e] at h; cases h
        obtain ⟨b1, u, b2, b3⟩ := ht s0 (hme.1 hs0.1).1 (hme.1 hs0.1).2 (nof s0 hs0.1 hs0a)
        obtain ⟨b4, -⟩ := ht s (hme.1 hs).1 (hme.1 hs).2 (nof s hs hsa)
        have hu : ∀ x, x = t0 → (inter (d.nbrs x) (d.nbrs f)).isEmpty ≠ true := by
          intro x hx hemp
          subst hx
          rw [List.isEmpty_iff] at hemp
          have : u ∈ inter (d.nbrs x) (d.nbrs f) := mem_inter.2
            ⟨(hP.good.mem_nbrs _ _).2 b2, (hP.good.mem_nbrs _ _).2 b3⟩
          rw [hemp] at this; simp at this
        have hd := hss hsne
        rcases b1 with b1 | b1
        · exact hu s0 b1 hsne
        · rcases b4 with b4 | b4
          · exact hu s b4 e
          · exact hd (b4.trans b1.symm)
      · rw [if_neg e]
        obtain ⟨u, hu, eu⟩ := firstBit_mem (l := inter (d.nbrs s) (d.nbrs f)) (by
          intro h; rw [h] at e; simp at e)
        rw [mem_inter, hP.good.mem_nbrs, hP.good.mem_nbrs] at hu
        obtain ⟨w, b1, b2⟩ := hP.soundE hf hl hf3 (by omega) ho (hme.1 hae).1 (hme.1 hae).2 haf
          (fun x hx hx1 hx2 => (hma x).1 ⟨hme.2 ⟨hx, hx1⟩, hx2⟩) (hme.1 hs).1 (hme.1 hs).2 hsa hu.1 hu.2
          nd
        left
        refine ⟨.E, w, ?_, b2⟩
        rw [show firstBit [a] = .ok a from rfl, eu, Res.ok_bind, Res.ok_bind, Res.ok_bind]
        dsimp only
        rw [b1, Res.ok_bind]
    · -- type D
      rw [if_neg h1]
      obtain ⟨p, q, r, q1, q2, q3, kk⟩ := hP.deg3 hf3
      rw [startOf_D]
      -- two extremities adjacent to the fork, and the third neighbour
      have two : ∀ x y, x ∈ ext → y ∈ ext → x ≠ y → AdjN n c f x → AdjN n c f y →
          ∃ v, v ≠ x ∧ v ≠ y ∧ ∀ z, AdjN n c f z ↔ z = v ∨ z = x ∨ z = y := by
        intro x y hx hy hxy h h'
        rw [kk] at h h'
        rcases h with rfl | rfl | rfl <;> rcases h' with rfl | rfl | rfl
        · exact absurd rfl hxy
        · exact ⟨r, Ne.symm q2, Ne.symm q3, fun z => (kk z).trans (by omega)⟩
        · exact ⟨q, Ne.symm q1, q3, fun z => (kk z).trans (by omega)⟩
        · exact ⟨r, Ne.symm q3, Ne.symm q2, fun z => (kk z).trans (by omega)⟩
        · exact absurd rfl hxy
        · exact ⟨p, q1, q2, fun z => (kk z).trans (by omega)⟩
        · exact ⟨q, q3, Ne.symm q1, fun z => (kk z).trans (by omega)⟩
        · exact ⟨p, q2, q1, fun z => (kk z).trans (by omega)⟩
        · exact absurd rfl hxy
      by_cases h4 : S.length = 4
      · rw [if_pos h4]
        -- all nodes other than the fork are adjacent to it
        have hall : ∀ x ∈ S, x = f ∨ AdjN n c f x := by
          have hnf : ∀ y, AdjN n c f y → f ≠ y := fun y hy e => by rw [← e] at hy; exact AdjN.irr _ hy
          have hsub : [f, p, q, r].Perm S := by
            have hs : [f, p, q, r].Subperm S := by
              refine List.subperm_of_subset ?_ ?_
              · simp [hnf p ((kk p).2 (by simp)), hnf q ((kk q).2 (by simp)),
                  hnf r ((kk r).2 (by simp)), q1, q2, q3]
              · intro x hx
                simp at hx
                rcases hx with rfl | rfl | rfl | rfl
                · exact hf
                · exact hP.closed f hf _ ((kk _).2 (by simp))
                · exact hP.closed f hf _ ((kk _).2 (by simp))
                · exact hP.closed f hf _ ((kk _).2 (by simp))
            exact hs.perm_of_length_le (by rw [h4]; simp)
          intro x hx
          rw [kk]
          have := hsub.mem_iff.2 hx
          simpa using this
        have hadj : ∀ x ∈ ext, AdjN n c f x := fun x hx =>
          (hall x (hme.1 hx).1).resolve_left (fne hx)
        obtain ⟨s, hs, es⟩ := firstBit_mem hne1
        obtain ⟨y, hy, ey⟩ := firstBit_mem (hrem s)
        rw [mem_diff] at hy
        have hys : y ≠ s := by simpa using hy.2
        obtain ⟨z, hz, z1, z2, z3, z4⟩ := hP.third hf hf3 ho (hme.1 hs).1 (hme.1 hy.1).1 hys
          (hme.1 hs).2 (hme.1 hy.1).2 (hadj s hs)
        have hze : z ∈ ext := hme.2 ⟨hz, z4⟩
        obtain ⟨v, v1, v2, hv⟩ := two y z hy.1 hze (Ne.symm z2) (hadj y hy.1) (hadj z hze)
        obtain ⟨w, b1, b2⟩ := hP.soundD (p := v) (e1 := y) (e2 := z) hf hl ho (Ne.symm z2) (Ne.symm v1)
          (Ne.symm v2) hv (hme.1 hy.1).2 z4 (hme.1 hs).1 (Ne.symm hys) (Ne.symm z1) (fne hs)
          (hme.1 hs).2 nd
        left
        refine ⟨.D, w, ?_, b2⟩
        rw [es, Res.ok_bind, Res.ok_bind]
        dsimp only
        rw [b1, Res.ok_bind]
      · rw [if_neg h4]
        by_cases hgt : (diff ext (d.nbrs f)).length > 1
        · rw [if_pos hgt]
          refine Or.inr ⟨rfl, ?_⟩
          intro ty pos hF
          exact hF.caseD hP hf hf3 h1 h4 hgt
        · rw [if_neg hgt]
          have hmd : ∀ {x}, x ∈ diff ext (d.nbrs f) ↔ x ∈ ext ∧ ¬ AdjN n c f x := by
            intro x; rw [mem_diff, hP.good.mem_nbrs]
          have hmi : ∀ {x}, x ∈ inter (d.nbrs f) ext ↔ AdjN n c f x ∧ x ∈ ext := by
            intro x; rw [mem_inter, hP.good.mem_nbrs]
          -- two extremities are adjacent to the fork
          obtain ⟨x, y, hxe, hye, hxy, hfx, hfy⟩ : ∃ x y, x ∈ ext ∧ y ∈ ext ∧ x ≠ y ∧
              AdjN n c f x ∧ AdjN n c f y := by
            have hin : inter (d.nbrs f) ext ≠ [] := by
              intro h0
              have : ∀ x ∈ ext, x ∈ diff ext (d.nbrs f) := by
                intro x hx
                rw [hmd]
                refine ⟨hx, fun h => ?_⟩
                have : x ∈ inter (d.nbrs f) ext := hmi.2 ⟨h, hx⟩
                rw [h0] at this; simp at this
              have := (List.subperm_of_subset hen this).length_le
              omega
            match hi : inter (d.nbrs f) ext, hin, h1 with
            | x :: y :: l, _, _ =>
              have hx := hmi.1 (show x ∈ inter (d.nbrs f) ext by rw [hi]; simp)
              have hy := hmi.1 (show y ∈ inter (d.nbrs f) ext by rw [hi]; simp)
              have hnd : (inter (d.nbrs f) ext).Nodup := (hP.good.nodup_nbrs f).filter _
              rw [hi] at hnd
              simp at hnd
              exact ⟨x, y, hx.2, hy.2, hnd.1.1, hx.1, hy.1⟩
            | [], h, _ => exact absurd rfl h
            | [x], _, h => exact absurd rfl h
          obtain ⟨v, v1, v2, hv⟩ := two x y hxe hye hxy hfx hfy
          obtain ⟨z, hz, z1, z2, z3, z4⟩ := hP.third hf hf3 ho (hme.1 hxe).1 (hme.1 hye).1 (Ne.symm hxy)
            (hme.1 hxe).2 (hme.1 hye).2 hfx
          have hzf : ¬ AdjN n c f z := by
            intro hfz
            have ezv : z = v := by
              rcases (hv z).1 hfz with h | h | h
              · exact h
              · exact absurd h z1
              · exact absurd h z2
            subst ezv
            apply h4
            have leaf : ∀ e ∈ S, (d.nbrs e).length < 2 → AdjN n c f e → ∀ w, AdjN n c e w → w = f := by
              intro e he hd hfe w hw
              exact (hP.deg_le1 he).1 hd w (hP.closed e he w hw) f hf hw (hP.sym _ _ hfe)
            have hall : ∀ w ∈ S, w = f ∨ w = z ∨ w = x ∨ w = y := by
              apply hP.conn f hf (fun w => w = f ∨ w = z ∨ w = x ∨ w = y) (Or.inl rfl)
              intro a _ ha b _ hab
              rcases ha with rfl | rfl | rfl | rfl
              · exact Or.inr ((hv b).1 hab)
              · exact Or.inl (leaf a hz z4 hfz b hab)
              · exact Or.inl (leaf a (hme.1 hxe).1 (hme.1 hxe).2 hfx b hab)
              · exact Or.inl (leaf a (hme.1 hye).1 (hme.1 hye).2 hfy b hab)
            have hp : [f, z, x, y].Perm S := by
              apply (List.perm_ext_iff_of_nodup _ hP.nodup).2
              · intro w
                constructor
                · intro hw
                  simp at hw
                  rcases hw with rfl | rfl | rfl | rfl
                  · exact hf
                  · exact hz
                  · exact (hme.1 hxe).1
                  · exact (hme.1 hye).1
                · intro hw; simpa using hall w hw
              · simp [Ne.symm z3, Ne.symm (fne hxe), Ne.symm (fne hye), z1, z2, hxy]
            rw [← hp.length_eq]; rfl
          have hzd : z ∈ diff ext (d.nbrs f) := hmd.2 ⟨hme.2 ⟨hz, z4⟩, hzf⟩
          have hl1 : (diff ext (d.nbrs f)).length = 1 := by
            have := List.length_pos_of_mem hzd
            omega
          rw [Res.assertIn_bind nd (by simpa using hl1)]
          obtain ⟨s, hs, es⟩ := firstBit_mem (l := diff ext (d.nbrs f)) (by
            intro h; rw [h] at hzd; simp at hzd)
          rw [hmd] at hs
          obtain ⟨w, b1, b2⟩ := hP.soundD (p := v) (e1 := x) (e2 := y) hf hl ho hxy (Ne.symm v1)
            (Ne.symm v2) hv (hme.1 hxe).2 (hme.1 hye).2 (hme.1 hs.1).1 (fun e => hs.2 (e ▸ hfx))
            (fun e => hs.2 (e ▸ hfy)) (fne hs.1) (hme.1 hs.1).2 nd
          left
          refine ⟨.D, w, ?_, b2⟩
          rw [es, Res.ok_bind, Res.ok_bind]
          dsimp only
          rw [b1, Res.ok_bind]

end Verif.Dynkin
