import Verif.Dynkin.Loops

/-! A matrix that fits a simple type passes the tests made for a component. -/

namespace Verif.Dynkin

open Verif.Weyl (Ty)

variable {n : ℕ} {c : ℕ → ℕ → Int} {d : Diagram} {S pos : List ℕ} {ty : Ty}

theorem Fits.idx (hF : Fits c S ty pos) {x : ℕ} (hx : x ∈ S) :
    ∃ i, i < S.length ∧ pos[i]? = some x := by
  obtain ⟨i, hi⟩ := List.mem_iff_getElem?.1 (hF.perm.mem_iff.2 hx)
  refine ⟨i, ?_, hi⟩
  by_contra h
  rw [List.getElem?_eq_none (by rw [hF.perm.length_eq]; omega)] at hi
  cases hi

theorem Fits.node (hF : Fits c S ty pos) {i : ℕ} (hi : i < S.length) :
    ∃ x ∈ S, pos[i]? = some x := by
  refine ⟨_, hF.perm.mem_iff.1 (List.getElem_mem (by rw [hF.perm.length_eq]; exact hi)), 
    List.getElem?_eq_getElem _⟩

theorem Fits.inj (hP : Piece n c d S) (hF : Fits c S ty pos) {i j x y : ℕ} (hi : pos[i]? = some x)
    (hj : pos[j]? = some y) : x = y ↔ i = j := by
  constructor
  · intro e
    subst e
    refine (List.getElem?_inj ?_ (hF.perm.nodup_iff.2 hP.nodup)).1 (hi.trans hj.symm)
    by_contra h
    rw [List.getElem?_eq_none (by omega)] at hi
    cases hi
  · intro e
    subst e
    exact Option.some.inj (hi.symm.trans hj)

theorem Fits.ltS (hF : Fits c S ty pos) {i x : ℕ} (hi : pos[i]? = some x) : i < S.length := by
  by_contra h
  rw [List.getElem?_eq_none (by rw [hF.perm.length_eq]; omega)] at hi
  cases hi

theorem Fits.memS (hF : Fits c S ty pos) {i x : ℕ} (hi : pos[i]? = some x) : x ∈ S :=
  hF.perm.mem_iff.1 (List.mem_of_getElem? hi)

theorem Fits.adj (hP : Piece n c d S) (hF : Fits c S ty pos) {i j x y : ℕ} (hi : pos[i]? = some x)
    (hj : pos[j]? = some y) : AdjN n c x y ↔ Nb ty S.length i j := by
  rw [← cartan_ne hF.rank (hF.ltS hi) (hF.ltS hj), ← hF.entry i j x y hi hj]
  have := Fits.inj hP hF hi hj
  unfold AdjN Adj
  have h1 := hP.lt x (hF.memS hi)
  have h2 := hP.lt y (hF.memS hj)
  constructor
  · rintro ⟨-, -, h, h'⟩; exact ⟨fun e => h (this.2 e), h'⟩
  · rintro ⟨h, h'⟩; exact ⟨h1, h2, fun e => h (this.1 e), h'⟩

theorem Fits.lab (hF : Fits c S ty pos) {i j x y : ℕ} (hi : pos[i]? = some x)
    (hj : pos[j]? = some y) : c x y < -1 ↔ Lb ty S.length i j := by
  rw [← cartan_lt hF.rank (hF.ltS hi) (hF.ltS hj), ← hF.entry i j x y hi hj]

theorem Fits.no4 (hP : Piece n c d S) (hF : Fits c S ty pos) {x : ℕ} (hx : x ∈ S) :
    ¬ (d.nbrs x).length > 3 := by
  intro h
  obtain ⟨p, q, r, s, e1, e2, e3, e4, e5, e6, a1, a2, a3, a4⟩ := hP.deg4 h
  obtain ⟨i, hi, ei⟩ := hF.idx hx
  obtain ⟨ip, hp, ep⟩ := hF.idx (hP.closed x hx p a1)
  obtain ⟨iq, hq, eq⟩ := hF.idx (hP.closed x hx q a2)
  obtain ⟨ir, hr, er⟩ := hF.idx (hP.closed x hx r a3)
  obtain ⟨is, hs, es⟩ := hF.idx (hP.closed x hx s a4)
  rw [hF.adj hP ei ep] at a1
  rw [hF.adj hP ei eq] at a2
  rw [hF.adj hP ei er] at a3
  rw [hF.adj hP ei es] at a4
  have f : ∀ {a b i j : ℕ}, pos[i]? = some a → pos[j]? = some b → a ≠ b → i ≠ j :=
    fun h1 h2 h3 e => h3 ((Fits.inj hP hF h1 h2).2 e)
  exact nb_four hp hq hr hs a1 a2 a3 a4 (f ep eq e1) (f ep er e2) (f ep es e3) (f eq er e4)
    (f eq es e5) (f er es e6)

theorem Fits.fork (hP : Piece n c d S) (hF : Fits c S ty pos) {x : ℕ} (hx : x ∈ S)
    (h : (d.nbrs x).length = 3) {i : ℕ} (ei : pos[i]? = some x) :
    (ty = .D ∧ i + 3 = S.length) ∨ (ty = .E ∧ i = 3) := by
  obtain ⟨p, q, r, e1, e2, e3, ha⟩ := hP.deg3 h
  have a1 := (ha p).2 (by simp)
  have a2 := (ha q).2 (by simp)
  have a3 := (ha r).2 (by simp)
  obtain ⟨ip, hp, ep⟩ := hF.idx (hP.closed x hx p a1)
  obtain ⟨iq, hq, eq⟩ := hF.idx (hP.closed x hx q a2)
  obtain ⟨ir, hr, er⟩ := hF.idx (hP.closed x hx r a3)
  rw [hF.adj hP ei ep] at a1
  rw [hF.adj hP ei eq] at a2
  rw [hF.adj hP ei er] at a3
  have f : ∀ {a b i j : ℕ}, pos[i]? = some a → pos[j]? = some b → a ≠ b → i ≠ j :=
    fun h1 h2 h3 e => h3 ((Fits.inj hP hF h1 h2).2 e)
  exact nb_three hp hq hr a1 a2 a3 (f ep eq e1) (f ep er e2) (f eq er e3)

theorem Fits.no33 (hP : Piece n c d S) (hF : Fits c S ty pos) {x y : ℕ} (hx : x ∈ S) (hy : y ∈ S)
    (h : (d.nbrs x).length = 3) (h' : (d.nbrs y).length = 3) : x = y := by
  obtain ⟨i, hi, ei⟩ := hF.idx hx
  obtain ⟨j, hj, ej⟩ := hF.idx hy
  rw [Fits.inj hP hF ei ej]
  have a := hF.fork hP hx h ei
  have b := hF.fork hP hy h' ej
  rcases a with ⟨a1, a2⟩ | ⟨a1, a2⟩ <;> rcases b with ⟨b1, b2⟩ | ⟨b1, b2⟩
  · omega
  · rw [a1] at b1; cases b1
  · rw [a1] at b1; cases b1
  · omega

/-- the test for an extremity in terms of positions -/
theorem Fits.ext_iff (hP : Piece n c d S) (hF : Fits c S ty pos) {i x : ℕ} (hi : pos[i]? = some x) :
    (d.nbrs x).length < 2 ↔ ∀ a < S.length, ∀ b < S.length, Nb ty S.length i a → Nb ty S.length i b →
      a = b := by
  rw [hP.deg_le1 (hF.memS hi)]
  constructor
  · intro h a ha b hb h1 h2
    obtain ⟨y, hy, ey⟩ := hF.node ha
    obtain ⟨z, hz, ez⟩ := hF.node hb
    rw [← hF.adj hP hi ey] at h1
    rw [← hF.adj hP hi ez] at h2
    exact (Fits.inj hP hF ey ez).1 (h y hy z hz h1 h2)
  · intro h y hy z hz h1 h2
    obtain ⟨a, ha, ey⟩ := hF.idx hy
    obtain ⟨b, hb, ez⟩ := hF.idx hz
    rw [hF.adj hP hi ey] at h1
    rw [hF.adj hP hi ez] at h2
    exact (Fits.inj hP hF ey ez).2 (h a ha b hb h1 h2)

theorem two_le_length {l : List ℕ} {x y : ℕ} (hx : x ∈ l) (hy : y ∈ l) (h : x ≠ y) :
    2 ≤ l.length := by
  match l, hx, hy with
  | [a], hx, hy => simp at hx hy; omega
  | a :: b :: l, _, _ => simp

theorem length_le_one {l : List ℕ} (hn : l.Nodup) (h : ∀ x ∈ l, ∀ y ∈ l, x = y) : l.length ≤ 1 := by
  match l, hn, h with
  | [], _, _ => simp
  | [a], _, _ => simp
  | a :: b :: l, hn, h => simp [h a (by simp) b (by simp)] at hn

theorem length_eq_one {l : List ℕ} (hn : l.Nodup) {x : ℕ} (h : ∀ y, y ∈ l ↔ y = x) : l.length = 1 := by
  have h1 := length_le_one hn (fun a ha b hb => by rw [(h a).1 ha, (h b).1 hb])
  have h2 := List.length_pos_of_mem ((h x).2 rfl)
  omega

theorem mem_ext {x : ℕ} : x ∈ S.filter (fun i => decide ((d.nbrs i).length < 2)) ↔
    x ∈ S ∧ (d.nbrs x).length < 2 := by simp

theorem Fits.ext2 (hP : Piece n c d S) (hF : Fits c S ty pos) (h2 : 2 < S.length) :
    ¬ (S.filter (fun i => decide ((d.nbrs i).length < 2))).length < 2 := by
  obtain ⟨x, hx, ex⟩ := hF.node (i := 0) (by omega)
  obtain ⟨y, hy, ey⟩ := hF.node (i := S.length - 1) (by omega)
  have := two_le_length (l := S.filter (fun i => decide ((d.nbrs i).length < 2))) (x := x) (y := y)
    (mem_ext.2 ⟨hx, (hF.ext_iff hP ex).2 fun a ha b hb h h' => nb_first hF.rank h2 ha hb h h'⟩)
    (mem_ext.2 ⟨hy, (hF.ext_iff hP ey).2 fun a ha b hb h h' => nb_last hF.rank h2 ha hb h h'⟩)
    (fun e => by have := (Fits.inj hP hF ex ey).1 e; omega)
  omega

/-- the labelled edges of a piece -/
theorem Piece.label (hP : Piece n c d S) {i j : ℕ} {m : Int} (h : ((i, j), m) ∈ d.down) (hi : i ∈ S) :
    j ∈ S ∧ c i j < -1 ∧ m = -c i j ∧ AdjN n c i j := by
  obtain ⟨h1, h2, h3, h4, h5⟩ := hP.good.mem_down.1 h
  have : AdjN n c i j := ⟨h1, h2, h3, by omega⟩
  exact ⟨hP.closed i hi j this, h4, h5, this⟩

theorem Fits.lab3 (hP : Piece n c d S) (hF : Fits c S ty pos) (h2 : 2 < S.length) :
    ∀ x ∈ d.down, x.1.1 ∈ S → x.2 ≠ 3 := by
  rintro ⟨⟨i, j⟩, m⟩ hx hS
  obtain ⟨h3, h4, h5, -⟩ := hP.label hx hS
  obtain ⟨a, _, ea⟩ := hF.idx hS
  obtain ⟨b, _, eb⟩ := hF.idx h3
  have := hF.entry a b i j ea eb
  have := cartan_bound (i := a) (j := b) hF.rank h2
  dsimp only
  omega

theorem Fits.lab2 (hP : Piece n c d S) (hF : Fits c S ty pos) :
    ∀ x ∈ d.down, ∀ y ∈ d.down, x.1.1 ∈ S → y.1.1 ∈ S → x = y := by
  rintro ⟨⟨i, j⟩, m⟩ hx ⟨⟨i', j'⟩, m'⟩ hy hS hS'
  obtain ⟨h3, h4, h5, -⟩ := hP.label hx hS
  obtain ⟨h3', h4', h5', -⟩ := hP.label hy hS'
  obtain ⟨a, _, ea⟩ := hF.idx hS
  obtain ⟨b, _, eb⟩ := hF.idx h3
  obtain ⟨a', _, ea'⟩ := hF.idx hS'
  obtain ⟨b', _, eb'⟩ := hF.idx h3'
  rw [hF.lab ea eb] at h4
  rw [hF.lab ea' eb'] at h4'
  obtain ⟨e1, e2⟩ := lb_one h4 h4'
  have e3 := (Fits.inj hP hF ea ea').2 e1
  have e4 := (Fits.inj hP hF eb eb').2 e2
  dsimp only at e3 e4
  subst e3 e4
  rw [h5, h5']

theorem Fits.forkLabel (hP : Piece n c d S) (hF : Fits c S ty pos) {f : ℕ} (hf : f ∈ S)
    (h3 : (d.nbrs f).length = 3) : ∀ x ∈ d.down, x.1.1 ∉ S := by
  rintro ⟨⟨i, j⟩, m⟩ hx hS
  obtain ⟨h3', h4, h5, -⟩ := hP.label hx hS
  obtain ⟨a, _, ea⟩ := hF.idx hS
  obtain ⟨b, _, eb⟩ := hF.idx h3'
  obtain ⟨k, _, ek⟩ := hF.idx hf
  rw [hF.lab ea eb] at h4
  rcases hF.fork hP hf h3 ek with ⟨e, _⟩ | ⟨e, _⟩ <;> subst e <;> exact h4

/-- a fork with some number of adjacent extremities other than 1: type D -/
theorem Fits.caseD (hP : Piece n c d S) (hF : Fits c S ty pos) {f : ℕ} (hf : f ∈ S)
    (h3 : (d.nbrs f).length = 3)
    (h1 : (inter (d.nbrs f) (S.filter (fun i => decide ((d.nbrs i).length < 2)))).length ≠ 1)
    (h4 : S.length ≠ 4) :
    ¬ (diff (S.filter (fun i => decide ((d.nbrs i).length < 2))) (d.nbrs f)).length > 1 := by
  obtain ⟨k, hk, ek⟩ := hF.idx hf
  rcases hF.fork hP hf h3 ek with ⟨e, hk'⟩ | ⟨e, hk'⟩
  · have hr := hF.rank
    subst e
    simp only [Weyl.Ty.RankOK] at hr
    have key : ∀ x ∈ diff (S.filter (fun i => decide ((d.nbrs i).length < 2))) (d.nbrs f),
        pos[0]? = some x := by
      intro x hx
      rw [mem_diff, mem_ext, hP.good.mem_nbrs] at hx
      obtain ⟨⟨hxS, hx1⟩, hx2⟩ := hx
      obtain ⟨i, hi, ei⟩ := hF.idx hxS
      rw [hF.adj hP ek ei] at hx2
      rw [hF.ext_iff hP ei] at hx1
      have : i = 0 := by
        by_contra h0
        rw [nb_D] at hx2
        have h5 : i + 3 ≤ S.length := by omega
        have := hx1 (i - 1) (by omega) (i + 1) (by omega) (by rw [nb_D]; omega) (by rw [nb_D]; omega)
        omega
      rw [← this]; exact ei
    have := length_le_one (diff_nodup (hP.nodup.filter _)) (fun x hx y hy =>
      Option.some.inj ((key x hx).symm.trans (key y hy)))
    omega
  · exfalso
    apply h1
    have hr := hF.rank
    subst e
    simp only [Weyl.Ty.RankOK] at hr
    obtain ⟨a, haS, ea⟩ := hF.node (i := 1) (by omega)
    refine length_eq_one (x := a) ((hP.good.nodup_nbrs f).filter _) ?_
    intro y
    rw [mem_inter, mem_ext, hP.good.mem_nbrs]
    constructor
    · rintro ⟨hy1, hyS, hy2⟩
      obtain ⟨i, hi, ei⟩ := hF.idx hyS
      rw [hF.adj hP ek ei] at hy1
      rw [hF.ext_iff hP ei] at hy2
      rw [Fits.inj hP hF ei ea]
      simp only [Nb] at hy1
      have h5 : i = 1 ∨ i = 2 ∨ i = 4 := by omega
      rcases h5 with h5 | h5 | h5
      · exact h5
      · have := hy2 0 (by omega) 3 (by omega) (by rw [nb_E]; omega) (by rw [nb_E]; omega)
        omega
      · have := hy2 3 (by omega) 5 (by omega) (by rw [nb_E]; omega) (by rw [nb_E]; omega)
        omega
    · intro e
      subst e
      refine ⟨(hF.adj hP ek ea).2 (by rw [nb_E]; omega), haS, (hF.ext_iff hP ea).2 ?_⟩
      intro a ha b hb h h'
      simp only [Nb] at h h'
      omega

/-- a fork with one adjacent extremity: type E -/
theorem Fits.caseE (hP : Piece n c d S) (hF : Fits c S ty pos) {f : ℕ} (hf : f ∈ S)
    (h3 : (d.nbrs f).length = 3)
    (h1 : (inter (d.nbrs f) (S.filter (fun i => decide ((d.nbrs i).length < 2)))).length = 1) :
    S.length ≤ 8 ∧ ∃ s0 s1, ∀ x ∈ S, (d.nbrs x).length < 2 → ¬ AdjN n c f x →
      (x = s0 ∨ x = s1) ∧ ∃ u, AdjN n c s0 u ∧ AdjN n c f u := by
  obtain ⟨k, hk, ek⟩ := hF.idx hf
  rcases hF.fork hP hf h3 ek with ⟨e, hk'⟩ | ⟨e, hk'⟩
  · exfalso
    have hr := hF.rank
    subst e
    simp only [Weyl.Ty.RankOK] at hr
    obtain ⟨x, hx, ex⟩ := hF.node (i := S.length - 1) (by omega)
    obtain ⟨y, hy, ey⟩ := hF.node (i := S.length - 2) (by omega)
    have := two_le_length (x := x) (y := y)
      (l := inter (d.nbrs f) (S.filter (fun i => decide ((d.nbrs i).length < 2))))
      (mem_inter.2 ⟨(hP.good.mem_nbrs f x).2 ((hF.adj hP ek ex).2 (by rw [nb_D]; omega)),
        mem_ext.2 ⟨hx, (hF.ext_iff hP ex).2 fun a ha b hb h h' => by simp only [Nb] at h h'; omega⟩⟩)
      (mem_inter.2 ⟨(hP.good.mem_nbrs f y).2 ((hF.adj hP ek ey).2 (by rw [nb_D]; omega)),
        mem_ext.2 ⟨hy, (hF.ext_iff hP ey).2 fun a ha b hb h h' => by simp only [Nb] at h h'; omega⟩⟩)
      (fun e => by have := (Fits.inj hP hF ex ey).1 e; omega)
    omega
  · have hr := hF.rank
    subst e
    simp only [Weyl.Ty.RankOK] at hr
    obtain ⟨x, hx, ex⟩ := hF.node (i := 0) (by omega)
    obtain ⟨y, hy, ey⟩ := hF.node (i := S.length - 1) (by omega)
    obtain ⟨u, hu, eu⟩ := hF.node (i := 2) (by omega)
    refine ⟨hr.2, x, y, ?_⟩
    intro z hz hz1 hz2
    obtain ⟨i, hi, ei⟩ := hF.idx hz
    rw [hF.adj hP ek ei] at hz2
    rw [hF.ext_iff hP ei] at hz1
    refine ⟨?_, u, (hF.adj hP ex eu).2 (by rw [nb_E]; omega),
      (hF.adj hP ek eu).2 (by rw [nb_E]; omega)⟩
    rw [Fits.inj hP hF ei ex, Fits.inj hP hF ei ey]
    by_contra hcon
    rw [nb_E] at hz2
    have h5 : 3 ≤ i := by omega
    have := hz1 (i - 1) (by omega) (i + 1) (by omega) (by rw [nb_E]; omega) (by rw [nb_E]; omega)
    omega

/-- a labelled edge away from the ends: type F -/
theorem Fits.caseF (hP : Piece n c d S) (hF : Fits c S ty pos) (h2 : 2 < S.length) {u l : ℕ}
    (hu : u ∈ S) (hl : l ∈ S) (h : c u l < -1) (hu1 : ¬ (d.nbrs u).length < 2)
    (hl1 : ¬ (d.nbrs l).length < 2) : S.length ≤ 4 := by
  obtain ⟨i, hi, ei⟩ := hF.idx hu
  obtain ⟨j, hj, ej⟩ := hF.idx hl
  rw [hF.lab ei ej] at h
  rw [hF.ext_iff hP ei] at hu1
  rw [hF.ext_iff hP ej] at hl1
  have hr := hF.rank
  cases ty <;> simp only [Lb] at h <;> simp only [Weyl.Ty.RankOK] at hr
  · exfalso; apply hl1; intro a ha b hb h1 h2; simp only [Nb] at h1 h2; omega
  · exfalso; apply hu1; intro a ha b hb h1 h2; simp only [Nb] at h1 h2; omega
  · omega
  · omega

end Verif.Dynkin
