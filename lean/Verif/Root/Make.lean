import Verif.Root.Perms2
/-
The constructor of `RootSystem` (rootdata.cpp L131-328) and that of the dual system (L339-349) do what they should.
-/
namespace Verif.Root
open Verif.Coxeter CoxeterSystem

section
variable {rk : Nat} {M : CoxeterMatrix (Fin rk)} {W : Type} [Group W] {cs : CoxeterSystem M W} {C : Fin rk → Fin rk → ℤ} {h : IsCartan C M}
variable {n : Nat} {β β' : Nat → Fin rk → ℤ} {fd fa : Nat → Nat → Bool} {fl : Nat → Nat → Nat}

/-- The fields of `rs` describe the root system of the Cartan matrix `C`, with positive roots `β` and coroots `β'`. -/
structure Holds (cs : CoxeterSystem M W) (h : IsCartan C M) (pc : Bool) (n : Nat) (β β' : Nat → Fin rk → ℤ) (fd fa : Nat → Nat → Bool) (fl : Nat → Nat → Nat) (rs : RS) : Prop where
  rank : rs.rk = rk
  pref : rs.preferCo = pc
  cmat : rs.cmat = encM C
  roots : rs.roots = (List.range n).map fun j => enc (β j)
  coroots : rs.coroots = (List.range n).map fun j => enc (β' j)
  desc : rs.desc = tab n 32 fd
  asc : rs.asc = tab n 32 fa
  data : RData cs h n β β' fd fa fl
  order : InOrder n (if pc then β' else β)
  sizes : Sizes n ⟨rs.perms, rs.bots, rs.cobots⟩
  row : ∀ a < n, Row cs h n β β' ⟨rs.perms, rs.bots, rs.cobots⟩ a
  negRow : ∀ a < n, NegRow cs h n β β' ⟨rs.perms, rs.bots, rs.cobots⟩ a

/-- generation and coroots -/
theorem genco_ok [Finite W] (nd : Bool) (h0 : 0 < rk) (hb : Bounds cs h) :
    ∃ g co n β β' fd fa fl, generate nd rk (encM fun j i => C i j) = .ok g ∧ coInit g.roots (List.range rk) (List.replicate g.roots.length []) = .ok co ∧
      coLoop nd (encM C) g.desc g.link (List.range' rk (g.roots.length - rk)) co = .ok ((List.range n).map fun j => enc (β' j)) ∧
      g.roots = ((List.range n).map fun j => enc (β j)) ∧ g.desc = tab n 32 fd ∧ g.asc = tab n 32 fa ∧ g.link = tab n rk fl ∧ RData cs h n β β' fd fa fl ∧ InOrder n β := by
  obtain ⟨g, R, l, h1, h2, h3⟩ := generate_ok nd h0 hb
  obtain ⟨fd, fa, fl, q1, q2, q3, q4, q5, q6⟩ := rdata_of_gen h2 h3
  obtain ⟨co, c1, c2⟩ := coroots_ok nd hb.rank q5
  have hlen : g.roots.length = R.length := by rw [q1]; simp
  refine ⟨g, co, R.length, _, _, fd, fa, fl, h1, ?_, ?_, q1, q2, q3, q4, q5, q6⟩
  · rw [hlen, q1]; exact c1
  · rw [hlen, q2, q4]; exact c2

theorem RData.sym_eq (D : RData cs h n β β' fd fa fl) (hs : ∀ a b, C a b = C b a) :
    ((List.range n).map fun j => enc (β j)) = (List.range n).map fun j => enc (β' j) := by
  apply List.map_congr_left
  intro j hj
  obtain ⟨t, ht⟩ := D.isRoot j (List.mem_range.mp hj)
  beta_reduce
  rw [isRoot_sym hs ht]

theorem posRoot_rank {v : Fin rk → ℤ} (hv : PosRoot cs h v) : 0 < rk := by
  obtain ⟨⟨v', t, w, s, -⟩, -⟩ := hv
  exact Nat.zero_lt_of_lt s.2

/-- The constructor succeeds and gives the root system. -/
theorem make_ok [Finite W] (nd pc : Bool) (hb : if pc then Bounds cs h.dual else Bounds cs h) :
    ∃ rs n β β' fd fa fl, RS.make nd (encM C) pc = .ok rs ∧ Holds cs h pc n β β' fd fa fl rs := by
  by_cases h0 : rk = 0
  · subst h0
    refine ⟨⟨0, pc, encM C, [], [], [], [], [], [], []⟩, 0, fun _ => 0, fun _ => 0, fun _ _ => false, fun _ _ => false, fun _ _ => 0, ?_, ?_⟩
    · rw [RS.make]
      simp [encM]
    · refine ⟨rfl, rfl, rfl, rfl, rfl, rfl, rfl, ⟨le_refl _, fun j hj => absurd hj (by omega), fun j hj => absurd hj (by omega), fun j hj => absurd hj (by omega),
        fun v hv => absurd (posRoot_rank hv) (by omega), fun i => i.elim0, fun j hj => absurd hj (by omega), fun j hj => absurd hj (by omega), fun j hj => absurd hj (by omega),
        fun j hj => absurd hj (by omega)⟩, fun j k _ hk => absurd hk (by omega), ⟨rfl, rfl, rfl⟩, fun j hj => absurd hj (by omega), fun j hj => absurd hj (by omega)⟩
  · have hpos : 0 < rk := Nat.pos_of_ne_zero h0
    cases pc with
    | false =>
      simp only [Bool.false_eq_true, if_false] at hb
      obtain ⟨g, co, n, β, β', fd, fa, fl, h1, h2, h3, h4, h5, h6, h7, D, ho⟩ := genco_ok nd hpos hb
      obtain ⟨p, p1, p2, p3, p4⟩ := makePerms_ok nd hb.rank D
      refine ⟨⟨rk, false, encM C, g.roots, (List.range n).map fun j => enc (β' j), g.desc, g.asc, p.perms, p.bots, p.cobots⟩, n, β, β', fd, fa, fl, ?_,
        ⟨rfl, rfl, rfl, h4, rfl, h5, h6, D, by simpa using ho, p2, p3, p4⟩⟩
      rw [RS.make, encM_length, if_neg h0]
      simp only [Bool.false_eq_true, if_false, Res.ok_bind]
      rw [columns_enc, Res.ok_bind, h1, Res.ok_bind, h2, Res.ok_bind, h3, Res.ok_bind]
      rw [← h4, ← h5, ← h7] at p1
      rw [p1, Res.ok_bind]
    | true =>
      simp only [if_true] at hb
      obtain ⟨g, co, n, β', β, fd, fa, fl, h1, h2, h3, h4, h5, h6, h7, D', ho⟩ := genco_ok nd hpos hb
      have D : RData cs h n β β' fd fa fl := D'.dual
      obtain ⟨p, p1, p2, p3, p4⟩ := makePerms_ok nd hb.rank D
      refine ⟨⟨rk, true, encM C, (List.range n).map fun j => enc (β j), g.roots, g.desc, g.asc, p.perms, p.bots, p.cobots⟩, n, β, β', fd, fa, fl, ?_,
        ⟨rfl, rfl, rfl, rfl, h4, h5, h6, D, by simpa using ho, p2, p3, p4⟩⟩
      rw [RS.make, encM_length, if_neg h0]
      simp only [if_true]
      rw [swapRC_ok C [] [] (fun _ => rfl)]
      simp only [Res.ok_bind]
      rw [columns_enc, Res.ok_bind, h1, Res.ok_bind, h2, Res.ok_bind, h3, Res.ok_bind,
        swapRC_ok (fun a b => C b a) g.roots _ fun hs => by rw [h4]; exact D'.sym_eq hs]
      simp only [Res.ok_bind]
      rw [← h5, ← h7] at p1
      rw [h4, p1, Res.ok_bind]

/-- dual of the data on one root -/
theorem Row.dual (D : RData cs h n β β' fd fa fl) {perms : List (List Nat)} {b c : List (List Bool)} {a : Nat} (hr : Row cs h n β β' ⟨perms, b, c⟩ a) :
    Row cs h.dual n β' β ⟨perms, c, b⟩ a := by
  obtain ⟨⟨f, t, e, r, p⟩, hb, hc⟩ := hr
  exact ⟨⟨f, t, e, r.dual, p.dual D⟩, hc, hb⟩

theorem NegRow.dual {perms : List (List Nat)} {b c : List (List Bool)} {a : Nat} (hr : NegRow cs h n β β' ⟨perms, b, c⟩ a) : NegRow cs h.dual n β' β ⟨perms, c, b⟩ a := by
  obtain ⟨hb, hc⟩ := hr
  exact ⟨hc, hb⟩

/-- The dual constructor gives the dual root system. -/
theorem dual_ok [Finite W] {pc : Bool} {rs : RS} (H : Holds cs h pc n β β' fd fa fl rs) :
    ∃ rs', RS.dual rs = .ok rs' ∧ Holds cs h.dual (!pc) n β' β fd fa fl rs' := by
  refine ⟨{ rs with preferCo := !rs.preferCo, cmat := encM fun a b => C b a, roots := rs.coroots, coroots := rs.roots, bots := rs.cobots, cobots := rs.bots }, ?_, ?_⟩
  · rw [RS.dual, H.rank, H.cmat, swapRC_ok C rs.roots rs.coroots fun hs => by rw [H.roots, H.coroots]; exact H.data.sym_eq hs]
    rfl
  · refine ⟨H.rank, by rw [H.pref], rfl, H.coroots, H.roots, H.desc, H.asc, H.data.dual, ?_, ⟨H.sizes.perms, H.sizes.cobots, H.sizes.bots⟩, fun a ha => (H.row a ha).dual H.data,
      fun a ha => (H.negRow a ha).dual⟩
    have := H.order
    cases pc <;> simpa using this

end

end Verif.Root
