import Verif.Dynkin.Complete

/-! The traversal of a component that passes the tests numbers its nodes as in the standard diagram. -/

namespace Verif.Dynkin

open Verif.Weyl (Ty)

variable {n : ℕ} {c : ℕ → ℕ → Int} {d : Diagram} {S : List ℕ}

/-- `Fits` from the edges and labels -/
theorem Piece.fits (hP : Piece n c d S) {ty : Ty} {w : List ℕ} (h2 : 2 < S.length)
    (hr : ty.RankOK S.length) (hp : w.Perm S)
    (h3 : ∀ x ∈ S, ∀ y ∈ S, c x y ≠ -3)
    (hN : ∀ i j s t, w[i]? = some s → w[j]? = some t → i ≠ j → (AdjN n c s t ↔ Nb ty S.length i j))
    (hL : ∀ i j s t, w[i]? = some s → w[j]? = some t → i ≠ j → (c s t < -1 ↔ Lb ty S.length i j)) :
    Fits c S ty w := by
  refine ⟨hr, hp, ?_⟩
  intro i j s t hi hj
  have lt : ∀ {i s : ℕ}, w[i]? = some s → i < S.length := by
    intro i s hi
    by_contra h
    rw [List.getElem?_eq_none (by rw [hp.length_eq]; omega)] at hi
    cases hi
  have hs := hp.mem_iff.1 (List.mem_of_getElem? hi)
  have ht := hp.mem_iff.1 (List.mem_of_getElem? hj)
  have hne : i ≠ j → s ≠ t := by
    intro e e'
    subst e'
    exact e ((List.getElem?_inj (by rw [hp.length_eq]; exact lt hi) (hp.nodup_iff.2 hP.nodup)).1
      (hi.trans hj.symm))
  have hc := hP.good.pre s (hP.lt s hs) t (hP.lt t ht)
  unfold Cond at hc
  apply cartan_eq hr h2 (lt hi) (lt hj)
  · intro e
    subst e
    have : s = t := Option.some.inj (hi.symm.trans hj)
    rw [if_pos this] at hc
    exact hc
  · intro e
    rw [if_neg (hne e)] at hc
    have := h3 s hs t ht
    omega
  · intro e
    rw [← hN i j s t hi hj e]
    constructor
    · intro h; exact ⟨hP.lt s hs, hP.lt t ht, hne e, h⟩
    · intro h; exact h.2.2.2
  · exact hL i j s t hi hj

/-- numbering of a component without fork -/
theorem Piece.path (hP : Piece n c d S) (hf : ∀ x ∈ S, (d.nbrs x).length ≤ 2) {s : ℕ} (hs : s ∈ S)
    (h1 : (d.nbrs s).length < 2) (nd : Bool) (ty : Ty) (fork : Option ℕ) :
    ∃ w, walk nd d ty fork (S.length + 1) s S [] = .ok w ∧ w.Perm S ∧ IsPath (AdjN n c) w ∧
      w[0]? = some s := by
  obtain ⟨w, a, b, e⟩ := walk_path nd d ty fork hP.sym (fun a => AdjN.irr a) hP.good.mem_nbrs
    (S.length + 1) S s [] hP.nodup (by omega) hs ((hP.deg_le1 hs).1 h1)
    (fun y hy => hP.deg_le2 (hf y hy) S) (hP.conn s hs)
  exact ⟨s :: w, by rw [a]; rfl, b, e, rfl⟩

/-- the other extremity is at the end -/
theorem Piece.path_end (hP : Piece n c d S) {w : List ℕ} (hp : w.Perm S) (hw : IsPath (AdjN n c) w)
    {s x : ℕ} (h0 : w[0]? = some s) (hx : x ∈ S) (hxs : x ≠ s) (h1 : (d.nbrs x).length < 2) :
    w[S.length - 1]? = some x := by
  obtain ⟨i, hi⟩ := List.mem_iff_getElem?.1 (hp.mem_iff.2 hx)
  have hl : i < w.length := by
    by_contra h
    rw [List.getElem?_eq_none (by omega)] at hi
    cases hi
  have hi0 : i ≠ 0 := by
    intro e; subst e; exact hxs (Option.some.inj (hi.symm.trans h0))
  by_cases e : i + 1 = w.length
  · rw [← hp.length_eq, show w.length - 1 = i by omega]; exact hi
  · exfalso
    refine hw.inner hP.sym (fun a => AdjN.irr a) (hp.nodup_iff.2 hP.nodup) hi (by omega) (by omega) ?_
    intro a ha b hb
    exact (hP.deg_le1 hx).1 h1 a (hp.mem_iff.1 ha) b (hp.mem_iff.1 hb)

/-- the last node is an extremity -/
theorem Piece.path_last (hP : Piece n c d S) {w : List ℕ} (hp : w.Perm S)
    (hw : IsPath (AdjN n c) w) : ∃ z ∈ S, w[S.length - 1]? = some z ∧ (d.nbrs z).length < 2 := by
  obtain ⟨z, a, b⟩ := hw.last hP.sym (fun a => AdjN.irr a) (by
    intro e; rw [e] at hp; exact hP.ne hp.symm.eq_nil)
  rw [hp.length_eq] at a
  have hz := hp.mem_iff.1 (List.mem_of_getElem? a)
  refine ⟨z, hz, a, (hP.deg_le1 hz).2 ?_⟩
  intro x hx y hy
  exact b x (hp.mem_iff.2 hx) y (hp.mem_iff.2 hy)

theorem Piece.getElem?_inj (hP : Piece n c d S) {w : List ℕ} (hp : w.Perm S) {i j s : ℕ}
    (hi : w[i]? = some s) (hj : w[j]? = some s) : i = j := by
  refine (List.getElem?_inj ?_ (hp.nodup_iff.2 hP.nodup)).1 (hi.trans hj.symm)
  by_contra h
  rw [List.getElem?_eq_none (by omega)] at hi
  cases hi

theorem Piece.getElem?_lt (_hP : Piece n c d S) {w : List ℕ} (hp : w.Perm S) {i s : ℕ}
    (hi : w[i]? = some s) : i < S.length := by
  by_contra h
  rw [List.getElem?_eq_none (by rw [hp.length_eq]; omega)] at hi
  cases hi

/-- no labelled edges -/
def Plain (c : ℕ → ℕ → Int) (S : List ℕ) : Prop := ∀ x ∈ S, ∀ y ∈ S, x ≠ y → ¬ c x y < -1

/-- a single labelled edge -/
def Single (c : ℕ → ℕ → Int) (S : List ℕ) (u l : ℕ) : Prop :=
  u ∈ S ∧ l ∈ S ∧ c u l = -2 ∧ ∀ x ∈ S, ∀ y ∈ S, x ≠ y → c x y < -1 → x = u ∧ y = l

theorem Piece.self (hP : Piece n c d S) {x : ℕ} (hx : x ∈ S) : c x x = 2 := by
  have := hP.good.pre x (hP.lt x hx) x (hP.lt x hx)
  simpa [Cond] using this

theorem Piece.plain3 (hP : Piece n c d S) (h : Plain c S) : ∀ x ∈ S, ∀ y ∈ S, c x y ≠ -3 := by
  intro x hx y hy
  by_cases e : x = y
  · subst e; rw [hP.self hx]; decide
  · have := h x hx y hy e; omega

theorem Piece.single3 (hP : Piece n c d S) {u l : ℕ} (h : Single c S u l) :
    ∀ x ∈ S, ∀ y ∈ S, c x y ≠ -3 := by
  intro x hx y hy
  by_cases e : x = y
  · subst e; rw [hP.self hx]; decide
  · intro h3
    obtain ⟨rfl, rfl⟩ := h.2.2.2 x hx y hy e (by omega)
    have := h.2.2.1
    omega

theorem Piece.plainL (hP : Piece n c d S) (h : Plain c S) {ty : Ty} (hty : ty = .A ∨ ty = .D ∨ ty = .E)
    {w : List ℕ} (hp : w.Perm S) :
    ∀ i j s t, w[i]? = some s → w[j]? = some t → i ≠ j → (c s t < -1 ↔ Lb ty S.length i j) := by
  intro i j s t hi hj e
  have hs := hp.mem_iff.1 (List.mem_of_getElem? hi)
  have ht := hp.mem_iff.1 (List.mem_of_getElem? hj)
  have := h s hs t ht (by intro e'; subst e'; exact e (hP.getElem?_inj hp hi hj))
  rcases hty with rfl | rfl | rfl <;> simp [Lb] <;> omega

theorem Piece.singleL (hP : Piece n c d S) {u l : ℕ} (h : Single c S u l) {ty : Ty}
    {w : List ℕ} (hp : w.Perm S) {a b : ℕ} (ha : w[a]? = some u) (hb : w[b]? = some l)
    (hL : ∀ i j, i < S.length → j < S.length → (Lb ty S.length i j ↔ i = a ∧ j = b)) :
    ∀ i j s t, w[i]? = some s → w[j]? = some t → i ≠ j → (c s t < -1 ↔ Lb ty S.length i j) := by
  intro i j s t hi hj e
  have hs := hp.mem_iff.1 (List.mem_of_getElem? hi)
  have ht := hp.mem_iff.1 (List.mem_of_getElem? hj)
  rw [hL i j (hP.getElem?_lt hp hi) (hP.getElem?_lt hp hj)]
  constructor
  · intro h'
    obtain ⟨rfl, rfl⟩ := h.2.2.2 s hs t ht (by intro e'; subst e'; exact e (hP.getElem?_inj hp hi hj)) h'
    exact ⟨hP.getElem?_inj hp hi ha, hP.getElem?_inj hp hj hb⟩
  · rintro ⟨rfl, rfl⟩
    rw [Option.some.inj (hi.symm.trans ha), Option.some.inj (hj.symm.trans hb), h.2.2.1]
    decide

theorem Single.adj (hP : Piece n c d S) {u l : ℕ} (h : Single c S u l) : AdjN n c u l := by
  refine ⟨hP.lt u h.1, hP.lt l h.2.1, ?_, by rw [h.2.2.1]; decide⟩
  intro e
  have := h.2.2.1
  rw [← e, hP.self h.1] at this
  cases this

theorem Piece.pathN (hP : Piece n c d S) {w : List ℕ} (hw : IsPath (AdjN n c) w) {ty : Ty}
    (hty : ty = .A ∨ ty = .B ∨ ty = .C ∨ ty = .F) :
    ∀ i j s t, w[i]? = some s → w[j]? = some t → i ≠ j → (AdjN n c s t ↔ Nb ty S.length i j) := by
  intro i j s t hi hj _
  rw [hw.adj_iff hP.sym (fun a => AdjN.irr a) hi hj]
  rcases hty with rfl | rfl | rfl | rfl <;> exact Iff.rfl

theorem Piece.soundA (hP : Piece n c d S) (h2 : 2 < S.length)
    (hf : ∀ x ∈ S, (d.nbrs x).length ≤ 2) (hl : Plain c S) {s : ℕ} (hs : s ∈ S)
    (h1 : (d.nbrs s).length < 2) (nd : Bool) (fork : Option ℕ) :
    ∃ w, walk nd d .A fork (S.length + 1) s S [] = .ok w ∧ Fits c S .A w := by
  obtain ⟨w, a, b, e, -⟩ := hP.path hf hs h1 nd .A fork
  exact ⟨w, a, hP.fits h2 (by simp [Weyl.Ty.RankOK]; omega) b (hP.plain3 hl) (hP.pathN e (by simp))
    (hP.plainL hl (by simp) b)⟩

theorem Piece.soundB (hP : Piece n c d S) (h2 : 2 < S.length)
    (hf : ∀ x ∈ S, (d.nbrs x).length ≤ 2) {u l : ℕ} (hl : Single c S u l) {s : ℕ} (hs : s ∈ S)
    (h1 : (d.nbrs s).length < 2) (hl1 : (d.nbrs l).length < 2) (hsl : s ≠ l) (nd : Bool)
    (fork : Option ℕ) :
    ∃ w, walk nd d .B fork (S.length + 1) s S [] = .ok w ∧ Fits c S .B w := by
  obtain ⟨w, a, b, e, e0⟩ := hP.path hf hs h1 nd .B fork
  have el := hP.path_end b e e0 hl.2.1 (Ne.symm hsl) hl1
  obtain ⟨i, hi⟩ := List.mem_iff_getElem?.1 (b.mem_iff.2 hl.1)
  have := (e.adj_iff hP.sym (fun a => AdjN.irr a) hi el).1 (hl.adj hP)
  have hi' := hP.getElem?_lt b hi
  have : i = S.length - 2 := by omega
  subst this
  exact ⟨w, a, hP.fits h2 (by simp [Weyl.Ty.RankOK]; omega) b (hP.single3 hl) (hP.pathN e (by simp))
    (hP.singleL hl b hi el (by intro i j _ _; simp only [Lb]; omega))⟩

theorem Piece.soundC (hP : Piece n c d S) (h2 : 2 < S.length)
    (hf : ∀ x ∈ S, (d.nbrs x).length ≤ 2) {u l : ℕ} (hl : Single c S u l) {s : ℕ} (hs : s ∈ S)
    (h1 : (d.nbrs s).length < 2) (hl1 : (d.nbrs u).length < 2) (hsl : s ≠ u) (nd : Bool)
    (fork : Option ℕ) :
    ∃ w, walk nd d .C fork (S.length + 1) s S [] = .ok w ∧ Fits c S .C w := by
  obtain ⟨w, a, b, e, e0⟩ := hP.path hf hs h1 nd .C fork
  have el := hP.path_end b e e0 hl.1 (Ne.symm hsl) hl1
  obtain ⟨i, hi⟩ := List.mem_iff_getElem?.1 (b.mem_iff.2 hl.2.1)
  have := (e.adj_iff hP.sym (fun a => AdjN.irr a) el hi).1 (hl.adj hP)
  have hi' := hP.getElem?_lt b hi
  have : i = S.length - 2 := by omega
  subst this
  exact ⟨w, a, hP.fits h2 (by simp [Weyl.Ty.RankOK]; omega) b (hP.single3 hl) (hP.pathN e (by simp))
    (hP.singleL hl b el hi (by intro i j _ _; simp only [Lb]; omega))⟩

/-- the positions of the labelled edge in a component of type F -/
theorem Piece.posF (hP : Piece n c d S) (h2 : 2 < S.length) (h4 : S.length ≤ 4)
    {u l : ℕ} (hl : Single c S u l)
    (hu1 : ¬ (d.nbrs u).length < 2) (hl1 : ¬ (d.nbrs l).length < 2) {w : List ℕ} (b : w.Perm S)
    (e : IsPath (AdjN n c) w) {s : ℕ} (e0 : w[0]? = some s) (hs1 : (d.nbrs s).length < 2) :
    S.length = 4 ∧ ((w[1]? = some u ∧ w[2]? = some l) ∨ (w[1]? = some l ∧ w[2]? = some u)) := by
  obtain ⟨z, hz, ez, hz1⟩ := hP.path_last b e
  have key : ∀ x ∈ S, ¬ (d.nbrs x).length < 2 → ∃ i, 0 < i ∧ i + 1 < S.length ∧ w[i]? = some x := by
    intro x hx hx1
    obtain ⟨i, hi⟩ := List.mem_iff_getElem?.1 (b.mem_iff.2 hx)
    have hi' := hP.getElem?_lt b hi
    refine ⟨i, ?_, ?_, hi⟩
    · by_contra h
      have : i = 0 := by omega
      subst this
      rw [Option.some.inj (hi.symm.trans e0)] at hx1
      exact hx1 hs1
    · by_contra h
      have : i = S.length - 1 := by omega
      subst this
      rw [Option.some.inj (hi.symm.trans ez)] at hx1
      exact hx1 hz1
  obtain ⟨i, i0, i1, hi⟩ := key u hl.1 hu1
  obtain ⟨j, j0, j1, hj⟩ := key l hl.2.1 hl1
  have := (e.adj_iff hP.sym (fun a => AdjN.irr a) hi hj).1 (hl.adj hP)
  refine ⟨by omega, ?_⟩
  rcases this with h | h
  · have h1 : i = 1 := by omega
    have h2 : j = 2 := by omega
    subst h1 h2; exact Or.inl ⟨hi, hj⟩
  · have h1 : j = 1 := by omega
    have h2 : i = 2 := by omega
    subst h1 h2; exact Or.inr ⟨hj, hi⟩

theorem Piece.soundF (hP : Piece n c d S) (h2 : 2 < S.length) (h4 : S.length ≤ 4)
    (hf : ∀ x ∈ S, (d.nbrs x).length ≤ 2) {u l : ℕ} (hl : Single c S u l)
    (hu1 : ¬ (d.nbrs u).length < 2) (hl1 : ¬ (d.nbrs l).length < 2)
    {s : ℕ} (hs : s ∈ S) (h1 : (d.nbrs s).length < 2) (hsl : ¬ AdjN n c l s) (nd : Bool)
    (fork : Option ℕ) :
    ∃ w, walk nd d .F fork (S.length + 1) s S [] = .ok w ∧ Fits c S .F w := by
  obtain ⟨w, a, b, e, e0⟩ := hP.path hf hs h1 nd .F fork
  obtain ⟨h4, h | h⟩ := hP.posF h2 h4 hl hu1 hl1 b e e0 h1
  · exact ⟨w, a, hP.fits h2 (by simp [Weyl.Ty.RankOK]; omega) b (hP.single3 hl)
      (hP.pathN e (by simp)) (hP.singleL hl b h.1 h.2 (by intro i j _ _; simp only [Lb]))⟩
  · exact absurd ((e.adj_iff hP.sym (fun a => AdjN.irr a) h.1 e0).2 (by omega)) hsl

/-- there is an end not adjacent to the lower node of the labelled edge -/
theorem Piece.startF (hP : Piece n c d S) (h2 : 2 < S.length) (h4 : S.length ≤ 4)
    (hf : ∀ x ∈ S, (d.nbrs x).length ≤ 2) {u l : ℕ} (hl : Single c S u l)
    (hu1 : ¬ (d.nbrs u).length < 2) (hl1 : ¬ (d.nbrs l).length < 2)
    {s : ℕ} (hs : s ∈ S) (h1 : (d.nbrs s).length < 2) :
    ∃ z ∈ S, (d.nbrs z).length < 2 ∧ ¬ AdjN n c l z := by
  obtain ⟨w, a, b, e, e0⟩ := hP.path hf hs h1 true .F none
  obtain ⟨z, hz, ez, hz1⟩ := hP.path_last b e
  obtain ⟨h4, h | h⟩ := hP.posF h2 h4 hl hu1 hl1 b e e0 h1
  · refine ⟨s, hs, h1, ?_⟩
    rw [e.adj_iff hP.sym (fun a => AdjN.irr a) h.2 e0]; omega
  · refine ⟨z, hz, hz1, ?_⟩
    rw [e.adj_iff hP.sym (fun a => AdjN.irr a) h.1 ez]; omega

theorem pick {p q r x a b c : ℕ} (hx : x = p ∨ x = q ∨ x = r) (ha : a = p ∨ a = q ∨ a = r)
    (hb : b = p ∨ b = q ∨ b = r) (hc : c = p ∨ c = q ∨ c = r) (h1 : a ≠ x) (h2 : b ≠ x) (h3 : c ≠ x) :
    a = b ∨ a = c ∨ b = c := by omega

/-- with a fork and two extremities, one of them adjacent to the fork, there is a third one -/
theorem Piece.third (hP : Piece n c d S) {f e1 e2 : ℕ} (hf : f ∈ S) (h3 : (d.nbrs f).length = 3)
    (ho : ∀ x ∈ S, x ≠ f → (d.nbrs x).length ≤ 2) (he1 : e1 ∈ S) (he2 : e2 ∈ S) (hne : e2 ≠ e1)
    (h1 : (d.nbrs e1).length < 2) (h2 : (d.nbrs e2).length < 2) (ha : AdjN n c f e1) :
    ∃ z ∈ S, z ≠ e1 ∧ z ≠ e2 ∧ z ≠ f ∧ (d.nbrs z).length < 2 := by
  have hR : (diff S [e1]).Nodup := diff_nodup hP.nodup
  have m : ∀ {x}, x ∈ diff S [e1] ↔ x ∈ S ∧ x ≠ e1 := by intro x; rw [mem_diff]; simp
  have l1 := (hP.deg_le1 he1).1 h1
  have l2 := (hP.deg_le1 he2).1 h2
  have e1f : ∀ z ∈ S, AdjN n c e1 z → z = f := fun z hz hz' => l1 z hz f hf hz' (hP.sym _ _ ha)
  have hfe1 : f ≠ e1 := fun e => by rw [e] at ha; exact AdjN.irr _ ha
  have hfe2 : f ≠ e2 := fun e => by rw [e] at h3; omega
  obtain ⟨p, q, r, k1, k2, k3, kk⟩ := hP.deg3 h3
  obtain ⟨w, b, e⟩ := exists_path (adj := AdjN n c) hP.sym (fun a => AdjN.irr a) hR (m.2 ⟨he2, hne⟩)
    (fun y hy z hz => l2 y (m.1 hy).1 z (m.1 hz).1)
    (by
      intro y hy
      by_cases ef : y = f
      · subst ef
        intro a ha' b hb' c' hc' q1 q2 q3
        rw [m] at ha' hb' hc'
        rw [kk] at q1 q2 q3
        rw [kk] at ha
        omega
      · exact hP.deg_le2 (ho y (m.1 hy).1 ef) _)
    (by
      intro T hT hcl y hy
      have := hP.conn e2 he2 (fun z => (z ≠ e1 ∧ T z) ∨ (z = e1 ∧ T f)) (Or.inl ⟨hne, hT⟩) ?_ y
        (m.1 hy).1
      · rcases this with h | h
        · exact h.2
        · exact absurd h.1 (m.1 hy).2
      · intro a ha' hTa z hz haz
        rcases hTa with ⟨h, h'⟩ | ⟨h, h'⟩
        · by_cases ez : z = e1
          · subst ez
            refine Or.inr ⟨rfl, ?_⟩
            rw [← e1f a ha' (hP.sym _ _ haz)]; exact h'
          · exact Or.inl ⟨ez, hcl a (m.2 ⟨ha', h⟩) h' z (m.2 ⟨hz, ez⟩) haz⟩
        · subst h
          rw [e1f z hz haz]; exact Or.inl ⟨hfe1, h'⟩)
  obtain ⟨z, a1, a2⟩ := e.last hP.sym (fun a => AdjN.irr a) (by simp)
  have hzR := m.1 (b.mem_iff.1 (List.mem_of_getElem? a1))
  have hfR : f ∈ e2 :: w := b.mem_iff.2 (m.2 ⟨hf, hfe1⟩)
  have hzf : z ≠ f := by
    intro ez
    subst ez
    have hin : ∀ y, AdjN n c z y → y ≠ e1 → y ∈ e2 :: w := fun y hy hy' =>
      b.mem_iff.2 (m.2 ⟨hP.closed z hf y hy, hy'⟩)
    have ap := (kk p).2 (by simp)
    have aq := (kk q).2 (by simp)
    have ar := (kk r).2 (by simp)
    rcases (kk e1).1 ha with h | h | h
    · exact k3 (a2 q (hin q aq (by omega)) r (hin r ar (by omega)) aq ar)
    · exact k2 (a2 p (hin p ap (by omega)) r (hin r ar (by omega)) ap ar)
    · exact k1 (a2 p (hin p ap (by omega)) q (hin q aq (by omega)) ap aq)
  refine ⟨z, hzR.1, hzR.2, ?_, hzf, (hP.deg_le1 hzR.1).2 ?_⟩
  · intro ez
    subst ez
    have hnd := b.nodup_iff.2 hR
    have h0 : (z :: w)[0]? = some z := rfl
    have := (List.getElem?_inj (by simp) hnd).1 (h0.trans a1.symm)
    have hw : w = [] := List.eq_nil_of_length_eq_zero (by simp at this; omega)
    subst hw
    simp at hfR
    exact hfe2 hfR
  · intro x hx y hy hzx hzy
    have hne1 : ∀ x, AdjN n c z x → x ≠ e1 := by
      intro x hx ex
      subst ex
      exact hzf (e1f z hzR.1 (hP.sym _ _ hx))
    exact a2 x (b.mem_iff.2 (m.2 ⟨hx, hne1 x hzx⟩)) y (b.mem_iff.2 (m.2 ⟨hy, hne1 y hzy⟩)) hzx hzy

/-- numbering of a component of type D -/
theorem Piece.soundD (hP : Piece n c d S) {f p e1 e2 s : ℕ} (hf : f ∈ S) (hl : Plain c S)
    (ho : ∀ x ∈ S, x ≠ f → (d.nbrs x).length ≤ 2) (h12 : e1 ≠ e2) (h1p : e1 ≠ p) (h2p : e2 ≠ p)
    (hff : ∀ y, AdjN n c f y ↔ y = p ∨ y = e1 ∨ y = e2) (h1 : (d.nbrs e1).length < 2)
    (h2 : (d.nbrs e2).length < 2) (hs : s ∈ S) (hs1 : s ≠ e1) (hs2 : s ≠ e2) (hsf : s ≠ f)
    (hse : (d.nbrs s).length < 2) (nd : Bool) :
    ∃ w, walk nd d .D (some f) (S.length + 1) s S [] = .ok w ∧ Fits c S .D w := by
  have mp := hP.closed f hf p ((hff p).2 (by simp))
  have m1 := hP.closed f hf e1 ((hff e1).2 (by simp))
  have m2 := hP.closed f hf e2 ((hff e2).2 (by simp))
  have hE : ∀ e ∈ S, AdjN n c f e → (d.nbrs e).length < 2 → ∀ y, AdjN n c e y → y = f := by
    intro e he hfe hd y hy
    exact (hP.deg_le1 he).1 hd y (hP.closed e he y hy) f hf hy (hP.sym _ _ hfe)
  obtain ⟨w, a, b, g⟩ := walk_fork nd d hP.sym (fun a => AdjN.irr a) hP.good.mem_nbrs
    (hP.good.nodup_nbrs f) (S.length + 1) S s [] hP.nodup (by omega) hs hf hsf
    ((hP.deg_le1 hs).1 hse) (fun y hy hyf => hP.deg_le2 (ho y hy hyf) S)
    ⟨p, e1, e2, mp, m1, m2, h12, h1p, h2p, hs1, hs2, hff,
      hE e1 m1 ((hff e1).2 (by simp)) h1, hE e2 m2 ((hff e2).2 (by simp)) h2⟩ (hP.conn s hs)
  have h4 : 4 ≤ S.length := by
    have hsub : [f, p, e1, e2].Subperm S := by
      refine List.subperm_of_subset ?_ ?_
      · have np : f ≠ p := fun e => by have := (hff p).2 (by simp); rw [← e] at this; exact AdjN.irr _ this
        have n1 : f ≠ e1 := fun e => by have := (hff e1).2 (by simp); rw [← e] at this; exact AdjN.irr _ this
        have n2 : f ≠ e2 := fun e => by have := (hff e2).2 (by simp); rw [← e] at this; exact AdjN.irr _ this
        simp [np, n1, n2, h12, Ne.symm h1p, Ne.symm h2p]
      · intro x hx
        simp at hx
        rcases hx with rfl | rfl | rfl | rfl <;> assumption
    simpa using hsub.length_le
  refine ⟨s :: w, by rw [a]; rfl, hP.fits (by omega) h4 b (hP.plain3 hl) ?_ (hP.plainL hl (by simp) b)⟩
  have key : ∀ i j s' t, (s :: w)[i]? = some s' → (s :: w)[j]? = some t → i < j →
      (AdjN n c s' t ↔ Nb .D S.length i j) := by
    intro i j s' t hi hj hij
    rw [g.adj_lt hij hi hj, b.length_eq, nb_D]
    have := hP.getElem?_lt b hj
    omega
  intro i j s' t hi hj hne
  rcases Nat.lt_or_ge i j with h | h
  · exact key i j s' t hi hj h
  · rw [show AdjN n c s' t ↔ AdjN n c t s' from ⟨hP.sym _ _, hP.sym _ _⟩,
      key j i t s' hj hi (by omega), nb_D, nb_D]
    omega

/-- numbering of a component of type E -/
theorem Piece.soundE (hP : Piece n c d S) {f a s u : ℕ} (hf : f ∈ S) (hl : Plain c S)
    (h3 : (d.nbrs f).length = 3) (h8 : S.length ≤ 8)
    (ho : ∀ x ∈ S, x ≠ f → (d.nbrs x).length ≤ 2) (haS : a ∈ S) (ha : (d.nbrs a).length < 2)
    (hfa : AdjN n c f a) (hun : ∀ x ∈ S, (d.nbrs x).length < 2 → AdjN n c f x → x = a)
    (hs : s ∈ S) (hse : (d.nbrs s).length < 2) (hsa : s ≠ a) (hsu : AdjN n c s u)
    (hfu : AdjN n c f u) (nd : Bool) :
    ∃ w, walk nd d .E (some f) (S.length + 1) u (diff (diff S [s]) [a]) [s, a] = .ok w ∧
      Fits c S .E w := by
  have m : ∀ {x}, x ∈ diff (diff S [s]) [a] ↔ x ∈ S ∧ x ≠ s ∧ x ≠ a := by
    intro x; rw [mem_diff, mem_diff]; simp [and_assoc]
  have hsf : ¬ AdjN n c f s := fun h => hsa (hun s hs hse h)
  have sne : s ≠ f := fun e => by rw [e] at hse; omega
  have ane : a ≠ f := fun e => by rw [e] at ha; omega
  have hu : u ∈ S := hP.closed f hf u hfu
  have une : u ≠ f := fun e => by rw [e] at hfu; exact AdjN.irr _ hfu
  have us : u ≠ s := fun e => by rw [e] at hsu; exact AdjN.irr _ hsu
  have ua : u ≠ a := by
    intro e; subst e
    exact sne ((hP.deg_le1 hu).1 ha s hs f hf (hP.sym _ _ hsu) (hP.sym _ _ hfu))
  have sadj : ∀ y, AdjN n c s y → y = u := fun y hy =>
    (hP.deg_le1 hs).1 hse y (hP.closed s hs y hy) u hu hy hsu
  have aadj : ∀ y, AdjN n c a y → y = f := fun y hy =>
    (hP.deg_le1 haS).1 ha y (hP.closed a haS y hy) f hf hy (hP.sym _ _ hfa)
  obtain ⟨p, q, r, k1, k2, k3, kk⟩ := hP.deg3 h3
  have hR : (diff (diff S [s]) [a]).Nodup := diff_nodup (diff_nodup hP.nodup)
  have hRS : (s :: a :: diff (diff S [s]) [a]).Perm S :=
    (List.Perm.cons s (diff_perm (diff_nodup hP.nodup) (by rw [mem_diff]; simp [haS, Ne.symm hsa]))).trans
      (diff_perm hP.nodup hs)
  have hlen := hRS.length_eq
  simp only [List.length_cons] at hlen
  have fR : f ∈ diff (diff S [s]) [a] := m.2 ⟨hf, Ne.symm sne, Ne.symm ane⟩
  have uf : ∀ y ∈ diff (diff S [s]) [a], AdjN n c u y → y = f := by
    intro y hy huy
    have := hP.deg_le2 (ho u hu une) S s hs f hf y (m.1 hy).1 (hP.sym _ _ hsu) (hP.sym _ _ hfu) huy
    rcases this with h | h | h
    · exact absurd h sne
    · exact absurd h.symm (m.1 hy).2.1
    · exact h.symm
  obtain ⟨w, b1, b2, b3⟩ := walk_path nd d .E (some f) hP.sym (fun a => AdjN.irr a) hP.good.mem_nbrs
    (S.length + 1) (diff (diff S [s]) [a]) u [s, a] hR (by omega) (m.2 ⟨hu, us, ua⟩)
    (fun y hy z hz h h' => by rw [uf y hy h, uf z hz h'])
    (by
      intro y hy
      by_cases ef : y = f
      · subst ef
        intro a' ha' b' hb' c' hc' q1 q2 q3
        rw [m] at ha' hb' hc'
        exact pick ((kk _).1 hfa) ((kk _).1 q1) ((kk _).1 q2) ((kk _).1 q3) ha'.2.2 hb'.2.2 hc'.2.2
      · exact hP.deg_le2 (ho y (m.1 hy).1 ef) _)
    (by
      intro T hT hcl y hy
      have hTf : T f := hcl u (m.2 ⟨hu, us, ua⟩) hT f fR (hP.sym _ _ hfu)
      have := hP.conn u hu (fun z => z = s ∨ z = a ∨ (z ≠ s ∧ z ≠ a ∧ T z))
        (Or.inr (Or.inr ⟨us, ua, hT⟩)) ?_ y (m.1 hy).1
      · rcases this with h | h | h
        · exact absurd h (m.1 hy).2.1
        · exact absurd h (m.1 hy).2.2
        · exact h.2.2
      · intro x hx hTx z hz hxz
        by_cases z1 : z = s
        · exact Or.inl z1
        by_cases z2 : z = a
        · exact Or.inr (Or.inl z2)
        refine Or.inr (Or.inr ⟨z1, z2, ?_⟩)
        rcases hTx with e | e | ⟨x1, x2, x3⟩
        · subst e; rw [sadj z hxz]; exact hT
        · subst e; rw [aadj z hxz]; exact hTf
        · exact hcl x (m.2 ⟨hx, x1, x2⟩) x3 z (m.2 ⟨hz, z1, z2⟩) hxz)
  have b4 : (s :: a :: u :: w).Perm S := (List.Perm.cons s (List.Perm.cons a b2)).trans hRS
  -- the fork is next
  obtain ⟨i, hi⟩ := List.mem_iff_getElem?.1 (b2.mem_iff.2 fR)
  have hi1 : i = 1 := by
    have h0 : (u :: w)[0]? = some u := rfl
    have := (b3.adj_iff hP.sym (fun a => AdjN.irr a) h0 hi).1 (hP.sym _ _ hfu)
    omega
  subst hi1
  -- the third neighbour of the fork
  obtain ⟨v, hfv, va, vu⟩ : ∃ v, AdjN n c f v ∧ v ≠ a ∧ v ≠ u := by
    by_contra hcon
    have hcon : ∀ v, AdjN n c f v → v = a ∨ v = u := by
      intro v hv
      by_contra h
      exact hcon ⟨v, hv, fun e => h (Or.inl e), fun e => h (Or.inr e)⟩
    have a1 := hcon p ((kk p).2 (by simp))
    have a2 := hcon q ((kk q).2 (by simp))
    have a3 := hcon r ((kk r).2 (by simp))
    omega
  have hv := hP.closed f hf v hfv
  have vs : v ≠ s := fun e => hsf (e ▸ hfv)
  have vR : v ∈ diff (diff S [s]) [a] := m.2 ⟨hv, vs, va⟩
  obtain ⟨j, hj⟩ := List.mem_iff_getElem?.1 (b2.mem_iff.2 vR)
  have hj2 : j = 2 := by
    have := (b3.adj_iff hP.sym (fun a => AdjN.irr a) hi hj).1 hfv
    have : j ≠ 0 := by
      intro e; subst e
      simp at hj
      exact vu hj.symm
    omega
  subst hj2
  have h6 : 6 ≤ S.length := by
    by_contra hcon
    have hvl : (d.nbrs v).length < 2 := by
      rw [hP.deg_le1 hv]
      have : ∀ y, AdjN n c v y → y = f := by
        intro y hy
        have ys : y ≠ s := fun e => by
          subst e; exact vu (sadj v (hP.sym _ _ hy))
        have ya : y ≠ a := fun e => by
          subst e
          have := aadj v (hP.sym _ _ hy)
          subst this
          exact AdjN.irr _ hfv
        obtain ⟨k, hk⟩ := List.mem_iff_getElem?.1 (b2.mem_iff.2 (m.2 ⟨hP.closed v hv y hy, ys, ya⟩))
        have h1 := (b3.adj_iff hP.sym (fun a => AdjN.irr a) hj hk).1 hy
        have h2 : k < (u :: w).length := by
          by_contra h
          rw [List.getElem?_eq_none (by omega)] at hk
          cases hk
        rw [b2.length_eq] at h2
        have : k = 1 := by omega
        subst this
        exact Option.some.inj (hk.symm.trans hi)
      intro y _ z _ h h'
      rw [this y h, this z h']
    exact va (hun v hv hvl hfv)
  refine ⟨s :: a :: u :: w, by rw [b1]; rfl, hP.fits (by omega) ⟨h6, h8⟩ b4 (hP.plain3 hl) ?_
    (hP.plainL hl (by simp) b4)⟩
  have key : ∀ i j s' t, (s :: a :: u :: w)[i]? = some s' → (s :: a :: u :: w)[j]? = some t → i < j →
      (AdjN n c s' t ↔ Nb .E S.length i j) := by
    intro i j s' t hi' hj' hij
    rw [nb_E]
    match i, j, hij with
    | 0, j, hij =>
      have e : s' = s := by simpa using hi'.symm
      subst e
      constructor
      · intro h
        have := sadj t h
        subst this
        have := hP.getElem?_inj b4 (show (s' :: a :: t :: w)[2]? = some t from rfl) hj'
        omega
      · intro h
        have : j = 2 := by omega
        subst this
        have e : t = u := by simpa using hj'.symm
        subst e
        exact hsu
    | 1, j, hij =>
      have e : s' = a := by simpa using hi'.symm
      subst e
      constructor
      · intro h
        have := aadj t h
        subst this
        have := hP.getElem?_inj b4 (show (s :: s' :: u :: w)[3]? = some t from hi) hj'
        omega
      · intro h
        have : j = 3 := by omega
        subst this
        have e : t = f := Option.some.inj (hj'.symm.trans hi)
        subst e
        exact hP.sym _ _ hfa
    | i + 2, j + 2, hij =>
      have h1 : (u :: w)[i]? = some s' := by simpa using hi'
      have h2 : (u :: w)[j]? = some t := by simpa using hj'
      rw [b3.adj_iff hP.sym (fun a => AdjN.irr a) h1 h2]
      omega
  intro i j s' t hi' hj' hne
  rcases Nat.lt_or_ge i j with h | h
  · exact key i j s' t hi' hj' h
  · rw [show AdjN n c s' t ↔ AdjN n c t s' from ⟨hP.sym _ _, hP.sym _ _⟩,
      key j i t s' hj' hi' (by omega), nb_E, nb_E]
    omega

end Verif.Dynkin
