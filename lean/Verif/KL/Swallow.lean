import Verif.KL.Fill
import Verif.KL.SwallowModel

/-! A table that takes over columns from the table of a subblock. -/

set_option linter.unusedSectionVars false

namespace Verif.KL

open Polynomial

variable {B : Type} [Fintype B] [DecidableEq B]
variable {bs bt : Block} {b : Blk B} {D : Mod B → Mod B} {P : B → B → ℕ[X]} {el : ℕ → B} {M : ℕ}
variable {π : ℕ → ℕ} {embed : List ℕ}

/-- the same block with its reflections renumbered: number `s` now stands for `π s` -/
def Blk.permute (b : Blk B) (π : ℕ → ℕ) : Blk B where
  rank := b.rank
  len := b.len
  st s := b.st (π s)
  cross s := b.cross (π s)
  cay s := b.cay (π s)

/-- `bs` stands for a part of the block that `bt` stands for, with its elements numbered
differently, according to `embed`, and its reflections numbered differently, according to `π`.
This part contains with each element `y` all `z` with `P z y ≠ 0`. -/
structure SubBlock (bs bt : Block) (b : Blk B) (P : B → B → ℕ[X]) (el : ℕ → B) (π : ℕ → ℕ)
    (embed : List ℕ) : Prop where
  perm : ∀ s, s < b.rank → π s < b.rank
  surj : ∀ s, s < b.rank → ∃ s', s' < b.rank ∧ π s' = s
  length : embed.length = bs.size
  lt : ∀ z ∈ embed, z < bt.size
  rep : Represents bs (b.permute π) (fun z => el (embed.getD z 0))
  closed : ∀ y ∈ embed, ∀ z, P z (el y) ≠ 0 → ∃ j ∈ embed, el j = z

theorem Data.permute (h : Data b D P) (hp : ∀ s, s < b.rank → π s < b.rank) :
    Data (b.permute π) D P where
  wf := fun s hs x => h.wf (π s) (hp s hs) x
  dual := {
    add := h.dual.add
    smul := h.dual.smul
    hecke := fun s hs m => h.dual.hecke (π s) (hp s hs) m
    diag := h.dual.diag
    tri := h.dual.tri }
  klv := { one := h.klv.one, deg := h.klv.deg, dual := h.klv.dual }

namespace SubBlock

theorem get (h : SubBlock bs bt b P el π embed) {z : ℕ} (hz : z < bs.size) :
    embed[z]? = some (embed.getD z 0) := by
  have : z < embed.length := by rw [h.length]; exact hz
  simp [List.getD, this]

theorem mem (h : SubBlock bs bt b P el π embed) {z : ℕ} (hz : z < bs.size) :
    embed.getD z 0 ∈ embed := List.mem_of_getElem? (h.get hz)

theorem ltz (h : SubBlock bs bt b P el π embed) {z : ℕ} (hz : z < bs.size) :
    embed.getD z 0 < bt.size := h.lt _ (h.mem hz)

theorem of_mem (h : SubBlock bs bt b P el π embed) {y : ℕ} (hy : y ∈ embed) :
    ∃ z, z < bs.size ∧ embed.getD z 0 = y := by
  obtain ⟨z, hz⟩ := List.mem_iff_getElem?.1 hy
  have : z < embed.length := by
    by_contra hc
    rw [List.getElem?_eq_none (by omega)] at hz; cases hz
  exact ⟨z, by rw [← h.length]; exact this, by simp [List.getD, hz]⟩

theorem ctx (h : SubBlock bs bt b P el π embed) (hc : Ctx bt b D P el M) :
    Ctx bs (b.permute π) D P (fun z => el (embed.getD z 0)) M where
  data := hc.data.permute h.perm
  rep := h.rep
  closed := by
    intro y hy z hz
    obtain ⟨j, hj, e⟩ := h.closed _ (h.mem hy) z hz
    obtain ⟨i, hi, e'⟩ := h.of_mem hj
    exact ⟨i, hi, by show el (embed.getD i 0) = z; rw [e', e]⟩
  vanishing := by
    intro x y h1 h2 h3 h4 h5
    refine hc.vanishing x y h1 ?_ ?_ ?_ ?_
    · intro s hs; obtain ⟨s', hs', rfl⟩ := h.surj s hs; exact h2 s' hs'
    · intro s hs; obtain ⟨s', hs', rfl⟩ := h.surj s hs; exact h3 s' hs'
    · intro s hs; obtain ⟨s', hs', rfl⟩ := h.surj s hs; exact h4 s' hs'
    · intro s t hs ht
      obtain ⟨s', hs', rfl⟩ := h.surj s hs
      obtain ⟨t', ht', rfl⟩ := h.surj t ht
      exact h5 s' t' hs' ht'
  two := hc.two

theorem inj (h : SubBlock bs bt b P el π embed) {x y : ℕ} (hx : x < bs.size) (hy : y < bs.size)
    (e : embed.getD x 0 = embed.getD y 0) : x = y :=
  h.rep.inj x y hx hy (by show el _ = el _; rw [e])

theorem len (h : SubBlock bs bt b P el π embed) (hr : Represents bt b el) {x : ℕ}
    (hx : x < bs.size) : bs.length x = bt.length (embed.getD x 0) := by
  rw [h.rep.len x hx, hr.len _ (h.ltz hx)]; rfl

theorem prim (h : SubBlock bs bt b P el π embed) (hr : Represents bt b el) {x z : ℕ}
    (hx : x < bs.size) (hz : z < bs.size) :
    bs.isPrimitive x (bs.descentSet z) =
      bt.isPrimitive (embed.getD x 0) (bt.descentSet (embed.getD z 0)) := by
  rw [Bool.eq_iff_iff, isPrimitive_iff h.rep hx hz, isPrimitive_iff hr (h.ltz hx) (h.ltz hz)]
  constructor
  · intro g s hs
    obtain ⟨s', hs', rfl⟩ := h.surj s hs
    exact g s' hs'
  · intro g s hs
    exact g (π s) (h.perm s hs)

end SubBlock

/-- the primitive elements below a limit, in increasing order -/
def primsUp (b : Block) (A : List ℕ) (m : ℕ) : List ℕ :=
  (List.range m).filter (fun x => b.isPrimitive x A)

theorem primsUp_succ (b : Block) (A : List ℕ) (m : ℕ) :
    primsUp b A (m + 1) = primsUp b A m ++ if b.isPrimitive m A then [m] else [] := by
  unfold primsUp
  rw [List.range_succ, List.filter_append]
  congr 1
  by_cases h : b.isPrimitive m A = true <;> simp [h]

theorem primsUp_length (b : Block) (A : List ℕ) (m : ℕ) : (primsUp b A m).length = pcount b A m := rfl

theorem primsUp_get (A : List ℕ) {m x : ℕ} (hx : x < m) (hp : bt.isPrimitive x A = true) :
    (primsUp bt A m)[pcount bt A x]? = some x := by
  induction m with
  | zero => omega
  | succ m ih =>
    rw [primsUp_succ]
    by_cases e : x = m
    · subst e
      rw [List.getElem?_append_right (by rw [primsUp_length]), primsUp_length, if_pos hp]
      simp
    · have := pcount_lt hp (show x < m by omega)
      rw [List.getElem?_append_left (by rw [primsUp_length]; exact this), ih (by omega)]

theorem primitives_ok {y f : ℕ} (hf : bt.lengthFloor y = .ok f) :
    primitives bt y = .ok (primsUp bt (bt.descentSet y) f) := by
  rw [primitives, hf, Res.ok_bind, primsDown, List.reverse_reverse]; rfl

theorem swallowEntries_append (nd : Bool) (ts t : Table) (z : ℕ) (desc pc : List ℕ)
    (scol : List Pol) : ∀ (l l' : List ℕ) (i : ℕ) (col : List Pol),
    swallowEntries nd bs ts t embed z desc pc scol (l ++ l') i col =
      (swallowEntries nd bs ts t embed z desc pc scol l i col >>=
        fun c => swallowEntries nd bs ts t embed z desc pc scol l' (i + l.length) c) := by
  intro l
  induction l with
  | nil => intro l' i col; rfl
  | cons x l ih =>
    intro l' i col
    rw [List.cons_append, swallowEntries, swallowEntries]
    cases embed[x]? with
    | none => rfl
    | some ex =>
      dsimp only
      cases primIndex nd t (some ex) desc with
      | ok ni =>
        rw [Res.ok_bind, Res.ok_bind]
        cases swallowChecks nd bs ts t z x i ni desc pc with
        | ok u =>
          rw [Res.ok_bind, Res.ok_bind]
          cases scol[i]? with
          | none => rfl
          | some p =>
            dsimp only
            by_cases h : ni < col.length
            · rw [if_pos h, if_pos h, ih, List.length_cons, show i + 1 + l.length = i + (l.length + 1) by omega]
            · rw [if_neg h, if_neg h]; rfl
        | _ => rfl
      | _ => rfl

theorem swallowEntries_ok (hc : Ctx bt b D P el M) (h : SubBlock bs bt b P el π embed) (nd : Bool)
    {ts t : Table} {z f fs : ℕ} (hz : z < bs.size) {r rs : PrimRec}
    (hr : t.prim.lookup (bt.descentSet (embed.getD z 0)) = some r)
    (hrO : RecOK bt P el (bt.descentSet (embed.getD z 0)) r)
    (hrs : ts.prim.lookup (bs.descentSet z) = some rs)
    (hrsO : RecOK bs P (fun z => el (embed.getD z 0)) (bs.descentSet z) rs)
    (hfl : Floor bt (embed.getD z 0) f) (hfs : Floor bs z fs) {scol : List Pol}
    (hent : ∀ x, x < fs → bs.isPrimitive x (bs.descentSet z) = true →
      ∃ p, scol[pcount bs (bs.descentSet z) x]? = some p ∧
        Is M p (P (el (embed.getD x 0)) (el (embed.getD z 0)))) {col : List Pol}
    (hcol : col.length = pcount bt (bt.descentSet (embed.getD z 0)) f)
    (h0 : ∀ (p : Pol), p ∈ col → p = []) : ∀ m, m ≤ fs →
    ∃ c, swallowEntries nd bs ts t embed z (bt.descentSet (embed.getD z 0))
        (primsUp bt (bt.descentSet (embed.getD z 0)) f) scol
        (primsUp bs (bs.descentSet z) m) 0 col = .ok c ∧ c.length = col.length ∧
      (∀ x, x < m → bs.isPrimitive x (bs.descentSet z) = true →
        ∃ p, c[pcount bt (bt.descentSet (embed.getD z 0)) (embed.getD x 0)]? = some p ∧
          Is M p (P (el (embed.getD x 0)) (el (embed.getD z 0)))) ∧
      ∀ X, X < f → bt.isPrimitive X (bt.descentSet (embed.getD z 0)) = true →
        (∀ x, x < m → embed.getD x 0 ≠ X) →
        c[pcount bt (bt.descentSet (embed.getD z 0)) X]? = some [] := by
  intro m
  induction m with
  | zero =>
    intro _
    refine ⟨col, rfl, rfl, by intro x hx; omega, fun X hX hp _ => ?_⟩
    have hlt := pcount_lt hp hX
    rw [← hcol] at hlt
    rw [List.getElem?_eq_getElem hlt, h0 _ (List.getElem_mem hlt)]
  | succ m ih =>
    intro hm
    obtain ⟨c, e, hl, h1, h2⟩ := ih (by omega)
    have hms : m < bs.size := by have := hfs.1; omega
    rw [primsUp_succ]
    by_cases hp : bs.isPrimitive m (bs.descentSet z) = true
    · rw [if_pos hp, swallowEntries_append, e, Res.ok_bind, primsUp_length, swallowEntries, h.get hms]
      dsimp only
      have hpt : bt.isPrimitive (embed.getD m 0) (bt.descentSet (embed.getD z 0)) = true := by
        rw [← h.prim hc.rep hms hz]; exact hp
      obtain ⟨o, i1, _, _, i4⟩ := primIndex_ok nd hr hrO (some (embed.getD m 0))
        (by intro j e; cases e; exact h.ltz hms)
      rw [i1, i4 _ rfl hpt, Res.ok_bind]
      dsimp only
      have hmf : embed.getD m 0 < f := by
        rw [hfl.2 _ (h.ltz hms), ← h.len hc.rep hms, ← h.len hc.rep hz]
        exact (hfs.2 m hms).1 (by omega)
      have hck : swallowChecks nd bs ts t z m (0 + pcount bs (bs.descentSet z) m)
          (pcount bt (bt.descentSet (embed.getD z 0)) (embed.getD m 0))
          (bt.descentSet (embed.getD z 0)) (primsUp bt (bt.descentSet (embed.getD z 0)) f) =
          .ok () := by
        rw [swallowChecks]
        cases nd with
        | true => rfl
        | false =>
          rw [if_neg (by simp)]
          obtain ⟨o', j1, _, _, j4⟩ := primIndex_ok false hrs hrsO (some m)
            (by intro j e; cases e; exact hms)
          rw [j1, j4 _ rfl hp, Res.ok_bind, Res.assertIn_bind _ (by simp), primsUp_get _ hmf hpt]
          dsimp only
          rw [i1, i4 _ rfl hpt, Res.ok_bind]
          simp [Res.assertIn, Res.assert]
      rw [hck, Res.ok_bind]
      obtain ⟨p, k1, k2⟩ := hent m (by omega) hp
      rw [Nat.zero_add, k1]
      dsimp only
      have hlt := pcount_lt hpt hmf
      rw [if_pos (by rw [hl, hcol]; exact hlt), swallowEntries]
      refine ⟨_, rfl, by simp [hl], ?_, ?_⟩
      · intro x hx hpx
        by_cases ex : x = m
        · subst ex
          exact ⟨p, by rw [List.getElem?_set_self (by rw [hl, hcol]; exact hlt)], k2⟩
        · have hxs : x < bs.size := by omega
          have hptx : bt.isPrimitive (embed.getD x 0) (bt.descentSet (embed.getD z 0)) = true := by
            rw [← h.prim hc.rep hxs hz]; exact hpx
          obtain ⟨p', g1, g2⟩ := h1 x (by omega) hpx
          refine ⟨p', ?_, g2⟩
          rw [List.getElem?_set_ne, g1]
          intro e'
          exact ex (h.inj hxs hms (pcount_inj hpt hptx e').symm)
      · intro X hX hpX hne
        rw [List.getElem?_set_ne, h2 X hX hpX (fun x hx => hne x (by omega))]
        intro e'
        exact hne m (by omega) (pcount_inj hpt hpX e')
    · rw [if_neg hp, List.append_nil]
      refine ⟨c, e, hl, ?_, ?_⟩
      · intro x hx hpx
        by_cases ex : x = m
        · subst ex; exact absurd hpx hp
        · exact h1 x (by omega) hpx
      · intro X hX hpX hne
        exact h2 X hX hpX (fun x hx => hne x (by omega))

theorem renumber_ok (h : SubBlock bs bt b P el π embed) : ∀ l : List (ℕ × ℕ),
    (∀ p ∈ l, p.1 < bs.size) →
    renumber embed l = .ok (l.map (fun p => (embed.getD p.1 0, p.2))) := by
  intro l
  induction l with
  | nil => intro _; rfl
  | cons p l ih =>
    intro hl
    obtain ⟨x, c⟩ := p
    have hx : x < bs.size := hl (x, c) (by simp)
    rw [renumber, h.get hx]
    dsimp only
    rw [ih (fun p hp => hl p (by simp [hp]))]
    rfl

theorem SubBlock.muWeak (hc : Ctx bt b D P el M) (h : SubBlock bs bt b P el π embed) {z : ℕ}
    (hz : z < bs.size) {l : List (ℕ × ℕ)}
    (hl : MuWeak bs (b.permute π) P (fun z => el (embed.getD z 0)) z l) :
    MuWeak bt b P el (embed.getD z 0) (l.map (fun p => (embed.getD p.1 0, p.2))) := by
  constructor
  · rw [List.map_map]
    have e : Prod.fst ∘ (fun p : ℕ × ℕ => (embed.getD p.1 0, p.2)) =
      (fun x => embed.getD x 0) ∘ Prod.fst := rfl
    rw [e, ← List.map_map, List.pairwise_map]
    refine hl.1.imp_of_mem ?_
    intro i j hi hj hij
    have hi' : i < bs.size := by
      obtain ⟨p, hp, rfl⟩ := List.mem_map.1 hi; exact ((hl.2 p.1 p.2).1 hp).1
    have hj' : j < bs.size := by
      obtain ⟨p, hp, rfl⟩ := List.mem_map.1 hj; exact ((hl.2 p.1 p.2).1 hp).1
    exact ⟨fun e => hij.1 (h.inj hi' hj' e), hij.2⟩
  · intro Z c
    rw [List.mem_map]
    constructor
    · rintro ⟨⟨x, c'⟩, hp, e⟩
      cases e
      obtain ⟨g1, g2, g3⟩ := (hl.2 x c').1 hp
      exact ⟨h.ltz g1, g2, g3⟩
    · rintro ⟨g1, g2, g3⟩
      have hne : mu b P (el Z) (el (embed.getD z 0)) ≠ 0 := by rw [← g2]; exact g3
      obtain ⟨j, hj, e⟩ := h.closed _ (h.mem hz) _ (mu_ne b P hne).2.2.2
      have ej := hc.rep.inj _ _ (h.lt j hj) g1 e
      subst ej
      obtain ⟨i, hi, ei⟩ := h.of_mem hj
      refine ⟨(i, c), (hl.2 i c).2 ⟨hi, ?_, g3⟩, by simp only [ei]⟩
      show c = mu b P (el (embed.getD i 0)) (el (embed.getD z 0))
      rw [ei, g2]

theorem swallowColumn_ok (hc : Ctx bt b D P el M) (h : SubBlock bs bt b P el π embed) (nd : Bool)
    {ts t : Table} (hs : TableOK bs (b.permute π) P (fun z => el (embed.getD z 0)) M ts)
    (ht : TableOK bt b P el M t) {z : ℕ} (hz : z < bs.size) (hzh : z ∉ ts.holes)
    (hh : embed.getD z 0 ∈ t.holes) :
    ∃ t', swallowColumn nd bs bt ts t embed z (embed.getD z 0) = .ok t' ∧
      TableOK bt b P el M t' ∧ t'.holes = t.holes.erase (embed.getD z 0) := by
  have hez := h.ltz hz
  have hnd : t.holes.Nodup := ht.sorted.imp (fun g => Nat.ne_of_lt g)
  obtain ⟨⟨fs, scol, k1, k2, k3, k4, k5⟩, ⟨l, m1, m2⟩, ⟨rs, r1, r2⟩⟩ := hs.filled z hz hzh
  obtain ⟨f, hf, hfl⟩ := lengthFloor_ok hc.rep hez
  obtain ⟨t1, e1, p1, p2, p3, p4, ⟨r, p5⟩, p6⟩ :=
    preparePrimIndex_ok hc nd (bt.descentSet (embed.getD z 0)) ht.recs
  have hemp := ht.empty _ hh
  rw [swallowColumn, e1, Res.ok_bind, primitives_ok k1, Res.ok_bind, primitives_ok hf, Res.ok_bind,
    k3, p2, hemp, m1]
  dsimp only
  rw [Res.assertIn_bind nd (by rw [primsUp_length]; exact decide_eq_true k4)]
  obtain ⟨c, c1, c2, c3, c4⟩ := swallowEntries_ok hc h nd hz p5 (p1 _ _ p5) r1 r2 hfl k2
    (scol := scol) (fun x hx hp => k5 x (by omega) hx hp)
    (col := ([] : List Pol).take (primsUp bt (bt.descentSet (embed.getD z 0)) f).length ++
      List.replicate ((primsUp bt (bt.descentSet (embed.getD z 0)) f).length -
        ([] : List Pol).length) [])
    (by simp [primsUp_length]) (by intro p hp; simp at hp; exact hp.2) fs (le_refl _)
  rw [c1, Res.ok_bind, renumber_ok h l (fun p hp => ((m2.2 p.1 p.2).1 hp).1), Res.ok_bind]
  refine ⟨_, rfl, ?_, by rw [p4]⟩
  rw [p3, p4]
  refine ⟨?_, ?_, ?_, ?_, ?_, ?_, ?_⟩
  · show (t.kl.set _ _).length = _; rw [List.length_set, ht.kl]
  · show (t.mu.set _ _).length = _; rw [List.length_set, ht.mu]
  · intro A r' hr'; exact p1 A r' hr'
  · exact ht.sorted.sublist List.erase_sublist
  · intro x hx; exact ht.lt x (List.mem_of_mem_erase hx)
  · intro y hy hn
    by_cases e : y = embed.getD z 0
    · subst e
      refine ⟨⟨f, c, hf, hfl, ?_, ?_, ?_⟩, ⟨_, ?_, h.muWeak hc hz m2⟩, ⟨r, p5, p1 _ _ p5⟩⟩
      · show (t.kl.set _ _)[_]? = _
        rw [List.getElem?_set_self (by rw [ht.kl]; exact hez)]
      · rw [c2]; simp [primsUp_length]
      · intro X _ hX hpX
        by_cases hex : ∃ x, x < fs ∧ embed.getD x 0 = X
        · obtain ⟨x, hx, rfl⟩ := hex
          have hxs : x < bs.size := by have := k2.1; omega
          exact c3 x hx (by rw [h.prim hc.rep hxs hz]; exact hpX)
        · push Not at hex
          refine ⟨[], c4 X hX hpX hex, ?_⟩
          have : P (el X) (el (embed.getD z 0)) = 0 := by
            by_contra hne
            obtain ⟨j, hj, e⟩ := h.closed _ (h.mem hz) _ hne
            have hXs : X < bt.size := by have := hfl.1; omega
            have ej := hc.rep.inj _ _ (h.lt j hj) hXs e
            subst ej
            obtain ⟨i, hi, ei⟩ := h.of_mem hj
            refine hex i ?_ ei
            rw [k2.2 i hi, h.len hc.rep hi, h.len hc.rep hz, ei]
            exact (hfl.2 j hXs).1 hX
          rw [this]; exact Is.nil
      · show (t.mu.set _ _)[_]? = _
        rw [List.getElem?_set_self (by rw [ht.mu]; exact hez)]
    · have hn' : y ∉ t.holes := fun h' => hn ((List.mem_erase_of_ne e).2 h')
      refine (ht.filled y hy hn').transfer ?_ ?_ ?_
      · show (t.kl.set _ _)[_]? = _; rw [List.getElem?_set_ne (Ne.symm e)]
      · show (t.mu.set _ _)[_]? = _; rw [List.getElem?_set_ne (Ne.symm e)]
      · exact p6
  · intro y hy
    have hne : y ≠ embed.getD z 0 := by intro e; subst e; exact hnd.not_mem_erase hy
    show (t.kl.set _ _)[_]? = _
    rw [List.getElem?_set_ne (Ne.symm hne)]
    exact ht.empty y (List.mem_of_mem_erase hy)

theorem swallowLoop_ok (hc : Ctx bt b D P el M) (h : SubBlock bs bt b P el π embed) (nd : Bool)
    {ts : Table} (hs : TableOK bs (b.permute π) P (fun z => el (embed.getD z 0)) M ts) :
    ∀ (l : List ℕ) (t : Table), TableOK bt b P el M t → (∀ z ∈ l, z < bs.size) →
    ∃ t', swallowLoop nd bs bt ts embed l t = .ok t' ∧ TableOK bt b P el M t' ∧
      ∀ y, y ∈ t'.holes ↔ y ∈ t.holes ∧ ∀ z ∈ l, z ∉ ts.holes → embed.getD z 0 ≠ y := by
  intro l
  induction l with
  | nil => intro t ht _; exact ⟨t, rfl, ht, by simp⟩
  | cons z l ih =>
    intro t ht hl
    have hz : z < bs.size := hl z (by simp)
    have hl' : ∀ z ∈ l, z < bs.size := fun z' h' => hl z' (by simp [h'])
    rw [swallowLoop]
    by_cases hzh : z ∈ ts.holes
    · rw [if_pos hzh]
      obtain ⟨t', g1, g2, g3⟩ := ih t ht hl'
      refine ⟨t', g1, g2, fun y => ?_⟩
      rw [g3, List.forall_mem_cons]
      tauto
    · rw [if_neg hzh, h.get hz]
      dsimp only
      by_cases hh : embed.getD z 0 ∈ t.holes
      · rw [if_pos hh]
        obtain ⟨t1, f1, f2, f3⟩ := swallowColumn_ok hc h nd hs ht hz hzh hh
        rw [f1, Res.ok_bind]
        obtain ⟨t', g1, g2, g3⟩ := ih t1 f2 hl'
        refine ⟨t', g1, g2, fun y => ?_⟩
        have hnd : t.holes.Nodup := ht.sorted.imp (fun g => Nat.ne_of_lt g)
        rw [g3, List.forall_mem_cons, f3, hnd.mem_erase_iff]
        constructor
        · rintro ⟨⟨a1, a2⟩, a3⟩; exact ⟨a2, fun _ => Ne.symm a1, a3⟩
        · rintro ⟨a1, a2, a3⟩; exact ⟨⟨Ne.symm (a2 hzh), a1⟩, a3⟩
      · rw [if_neg hh]
        obtain ⟨t', g1, g2, g3⟩ := ih t ht hl'
        refine ⟨t', g1, g2, fun y => ?_⟩
        rw [g3, List.forall_mem_cons]
        constructor
        · rintro ⟨a1, a3⟩; exact ⟨a1, fun _ e => hh (e ▸ a1), a3⟩
        · rintro ⟨a1, a2, a3⟩; exact ⟨a1, a3⟩

theorem swallow_ok (hc : Ctx bt b D P el M) (h : SubBlock bs bt b P el π embed) (nd : Bool)
    {ts t : Table} (hs : TableOK bs (b.permute π) P (fun z => el (embed.getD z 0)) M ts)
    (ht : TableOK bt b P el M t) :
    ∃ t', swallow nd bs bt ts t embed = .ok t' ∧ TableOK bt b P el M t' ∧
      ∀ y, y ∈ t'.holes ↔ y ∈ t.holes ∧ ∀ z, z < bs.size → z ∉ ts.holes → embed.getD z 0 ≠ y := by
  obtain ⟨t', h1, h2, h3⟩ := swallowLoop_ok hc h nd hs (List.range bs.size) t ht (by simp)
  exact ⟨t', h1, h2, fun y => by rw [h3]; simp⟩

end Verif.KL
