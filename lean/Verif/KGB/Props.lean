import Verif.KGB.Acc
/-
**C68**: the set `K\G/B`, generated from seeds by cross actions and Cayley transforms, is complete and without repetition, and
the object describes it.
-/
namespace Verif.KGB
open Verif Verif.F2 Verif.Weyl Verif.Tits Verif.Coxeter CoxeterSystem Verif.BitSet Verif.Perm

variable {n r : Nat} {Mx : CoxeterMatrix (Fin n)} {G : Type} [Group G]
variable {cs : CoxeterSystem Mx G} {α αv : Fin n → Fin r → Int} {ρ : G →* Module.End ℤ (Fin r → Int)} {δ : Matrix (Fin r) (Fin r) Int} {f : Fin n → Fin n}
variable {𝒯 : Type} [Group 𝒯] {ι : (Fin r → ZMod 2) → 𝒯} {σ : Fin n → 𝒯} {π : 𝒯 →* G} {g : Fin n → Bool} {τ : 𝒯 →* 𝒯} {ψ : 𝒯 → TE}
variable {nd : Bool} {c : TC} {φ : G → List Nat} {it : ITab} {θ : G →* G} {seeds : List 𝒯} {N : Nat}

/-- **C68**.  Let `c` be a based Tits group as described by C66 and C67, `it` a table of twisted involutions, and let `seeds` represent strong
involutions that are pairwise inequivalent.  Suppose that the elements that can be reached from the seeds have their involutions in the
table, in one of the given orbits, and are in `N` classes, for the value `N` that is predicted.  Then the constructor succeeds, and
the object describes a system of representatives of these classes. -/
theorem C68_kgb (hn : n ≤ 32) (hT : IsTits cs α αv ι σ π) (hI : ImplementsTits nd cs c.T φ f α αv δ ι σ π ψ) (hW : Implements nd cs c.T.tw.W φ)
    (hB : IsBase f αv δ g ι σ τ) (hL : CosetLaws cs f α αv δ ρ ι σ π τ) (hC : ImplementsCoset nd cs c f α αv δ g ρ ι σ π τ ψ)
    (hit : IsInvTable cs θ φ δ ρ it) (hvalid : ∀ a ∈ seeds, a * τ a = 1) (hdistinct : seeds.Pairwise fun a b => ¬ Eqv ρ δ ι π a b)
    {orbits : List (Nat × Nat)} {nInv : Nat} (ho1 : (orbitNrs orbits).Nodup) (ho2 : ∀ i ∈ orbitNrs orbits, i < it.pool.length) (ho3 : it.pool.length ≤ nInv)
    (ho4 : ∀ a, Reach cs f α δ g ρ ι σ π τ seeds a → ∃ i ∈ orbitNrs orbits, it.pool[i]? = some (φ (π a)))
    (hN : ∃ e, IsSystem (Reach cs f α δ g ρ ι σ π τ seeds) (Eqv ρ δ ι π) N e) (hsmall : N < 2 ^ 32) :
    ∃ k e, make nd c it n N (seeds.map ψ) orbits nInv = .ok k ∧ IsSystem (Reach cs f α δ g ρ ι σ π τ seeds) (Eqv ρ δ ι π) N e ∧
      IsKGB nd cs c it θ φ f α δ g ρ ι σ π τ ψ k N e := by
  have H : Ctx cs α αv ρ δ f ι σ π g τ ψ nd c φ := ⟨hn, hT, hI, hW, hB, hL, hC⟩
  obtain ⟨nf, hnf⟩ := exists_nf H hit
  obtain ⟨e0, he0⟩ := hN
  have cov : ∀ a, Reach cs f α δ g ρ ι σ π τ seeds a → φ (π a) ∈ it.pool := fun a ha => by
    obtain ⟨i, -, h⟩ := ho4 a ha
    exact List.mem_of_getElem? h
  have V : Env cs α αv ρ δ f ι σ π g τ ψ nd c φ it θ seeds nf N e0 := ⟨H, hit, hvalid, cov, hnf, he0, hsmall⟩
  have ho4' : ∀ a, Reach cs f α δ g ρ ι σ π τ seeds a → it.nr (φ (π a)) ∈ orbitNrs orbits := fun a ha => by
    obtain ⟨i, h1, h2⟩ := ho4 a ha
    obtain ⟨p1, p2⟩ := List.getElem?_eq_some_iff.1 h2
    obtain ⟨q1, q2, -⟩ := nr_ok H hit (cov a ha)
    obtain ⟨q3, q4⟩ := List.getElem?_eq_some_iff.1 q2
    rwa [(hit.nodup.getElem_inj_iff).1 (q4.trans p2.symm)]
  obtain ⟨st0, es, C0, I0, g1, g2, hok, hlen, hall, hfi, -⟩ := V.gen hdistinct
  obtain ⟨L, loc, fot, e, C, I, f1, S⟩ := V.finish hok hlen hfi ho1 ho2 ho3 ho4'
  have hinfo : ∀ x, x < N → Vec.get (objOf n ψ c N L loc fot e C I).info x = .ok (I x) := fun x hx => get_range _ hx
  have hst : ∀ (s : Fin n) x, x < N → Obj.status (objOf n ψ c N L loc fot e C I) s x = .ok (sv cs α f ι σ π g s (e x)) := fun s x hx => by
    unfold Obj.status
    rw [hinfo x hx, Res.ok_bind, statusGet_rep (S.info x hx).1 (by have := s.2; omega)]
    simp
  have hds : ∀ (s : Fin n) x, x < N → Obj.isDescent (objOf n ψ c N L loc fot e C I) s x =
      .ok (decide (cs.length (cs.simple s * π (e x)) < cs.length (π (e x)))) := fun s x hx => by
    unfold Obj.isDescent
    rw [hinfo x hx, Res.ok_bind, bsTest_ok (by have := s.2; unfold dim; omega), (S.info x hx).2]
    simp
  have hval : ∀ (s : Fin n) x, x < N → (sv cs α f ι σ π g s (e x) = cplx ↔ cs.simple s * π (e x) ≠ π (e x) * cs.simple (f s)) ∧
      (sv cs α f ι σ π g s (e x) = realSt ↔ Real cs f s (π (e x))) ∧
      (sv cs α f ι σ π g s (e x) = imCpt ↔ Imaginary cs f s (π (e x)) ∧ ¬ Noncompact cs f α g ι σ π s (e x)) ∧
      (sv cs α f ι σ π g s (e x) = imNcpt ↔ Noncompact cs f α g ι σ π s (e x)) := fun s x hx => by
    have hne := cs.length_simple_mul_ne (π (e x)) s
    have hni : Noncompact cs f α g ι σ π s (e x) → Imaginary cs f s (π (e x)) := fun h => h.1
    revert hni
    unfold sv Real Imaginary
    by_cases k1 : cs.simple s * π (e x) = π (e x) * cs.simple (f s)
    · by_cases k2 : cs.length (cs.simple s * π (e x)) < cs.length (π (e x))
      · rw [if_neg (by simpa using k1), if_pos k2]
        intro hni
        have : ¬ Noncompact cs f α g ι σ π s (e x) := fun h => by have := (hni h).2; omega
        have h3 : ¬ cs.length (π (e x)) < cs.length (cs.simple s * π (e x)) := by omega
        simp [cplx, realSt, imCpt, imNcpt, k1, k2, this]
        rw [k1] at k2
        omega
      · have h3 : cs.length (π (e x)) < cs.length (cs.simple s * π (e x)) := by omega
        rw [if_neg (by simpa using k1), if_neg k2]
        intro hni
        by_cases k3 : Noncompact cs f α g ι σ π s (e x)
        · rw [if_pos k3]; simp [cplx, realSt, imCpt, imNcpt, k1, k2, k3]; rw [k1] at h3; omega
        · rw [if_neg k3]; simp [cplx, realSt, imCpt, imNcpt, k1, k2, k3]; rw [k1] at h3; omega
    · rw [if_pos (by simpa using k1)]
      intro hni
      have : ¬ Noncompact cs f α g ι σ π s (e x) := fun h => k1 (hni h).1
      simp [cplx, realSt, imCpt, imNcpt, k1, this]
  have hcr := acc_crossRight V hok hall S
  have hcay : ∀ (s : Fin n) x, x < N → ∀ y, y < N → (Obj.cayley (objOf n ψ c N L loc fot e C I) s x = .ok y ↔ (C s x).cayley = y) := fun s x hx y hy => by
    rw [acc_cayley s hx]
    exact ⟨fun h => Res.ok.inj h, fun h => congrArg _ h⟩
  have hlenw := fun {x : Nat} (hx : x < N) => acc_record V hok hall S ho2 ho4' ho1 hx
  refine ⟨objOf n ψ c N L loc fot e C I, e, ?_, acc_system V hok hall S, ?_⟩
  · unfold make
    rw [g1, Res.ok_bind, g2, Res.ok_bind, Res.assertIn_bind nd (by simp [stOf, hlen]), f1]
    rfl
  · refine ⟨?_, fun x hx => acc_tits V hok hall S ho2 ho4' ho1 hx, fun x hx => acc_involution V hok hall S ho2 ho4' ho1 hx, ?_, ?_, hcr, ?_, ?_, ?_, ?_, ?_, ?_, ?_, ?_,
      ?_, ?_, ?_, ?_, fun x hx => acc_packet V hok hall S ho2 ho4' ho1 hx, fun a ha => acc_lookup V hok hall S ho2 ho3 ho4' ho1 a ha⟩
    · simp [Obj.size, objOf]
    · intro s x hx
      exact ⟨_, acc_cross s hx, acc_crossSpec V hok hall S s hx⟩
    · intro l h x hx hh
      obtain ⟨y, k1, k2⟩ := hcr l.reverse h x hx (by rw [hh, cs.wordProd_reverse, _root_.inv_inv])
      refine ⟨y, ?_, k2⟩
      unfold Obj.crossLeft
      rw [← List.map_reverse, k1]
    · intro s x hx
      exact ⟨_, hst s x hx, hval s x hx⟩
    · intro s x hx
      exact ⟨_, hds s x hx, by simp⟩
    · intro s x hx
      have k1 : statusIsComplex (I x).status s = .ok (decide (sv cs α f ι σ π g s (e x) = 0)) := by
        rw [statusIsComplex_rep (S.info x hx).1 (by have := s.2; omega)]
        simp
      refine ⟨decide (sv cs α f ι σ π g s (e x) = 0 ∧ cs.length (cs.simple s * π (e x)) < cs.length (π (e x))), ?_, ?_⟩
      · unfold Obj.isComplexDescent
        rw [hinfo x hx, Res.ok_bind, k1, Res.ok_bind]
        by_cases h : sv cs α f ι σ π g s (e x) = 0
        · rw [decide_eq_true h, if_pos rfl, hds s x hx]; simp [h]
        · rw [decide_eq_false h, if_neg (by simp)]; simp [h]
      · rw [decide_eq_true_iff, ← (hval s x hx).1]; rfl
    · intro s x hx
      refine ⟨!decide (cs.length (cs.simple s * π (e x)) < cs.length (π (e x))) && !decide (sv cs α f ι σ π g s (e x) = imCpt), ?_, ?_⟩
      · unfold Obj.isAscent
        rw [hds s x hx, Res.ok_bind]
        by_cases h : cs.length (cs.simple s * π (e x)) < cs.length (π (e x))
        · rw [decide_eq_true h, if_pos rfl]; simp
        · rw [decide_eq_false h, if_neg (by simp), hst s x hx, Res.ok_bind]; simp
      · have hne := cs.length_simple_mul_ne (π (e x)) s
        rw [Bool.and_eq_true, Bool.not_eq_true', Bool.not_eq_true', decide_eq_false_iff_not, decide_eq_false_iff_not, (hval s x hx).2.2.1]
        constructor
        · rintro ⟨h1, h2⟩
          exact ⟨by omega, fun h => by by_contra h3; exact h2 ⟨h, h3⟩⟩
        · rintro ⟨h1, h2⟩
          exact ⟨by omega, fun h => h.2 (h2 h.1)⟩
    · intro s x hx h
      obtain ⟨h1, h2⟩ := (S.fields x hx s).2.1 h
      refine ⟨_, acc_cayley s hx, h1, (acc_eqv V hok hall S (.cayley s (acc_R V hok S hx).1 h) h1).2 h2⟩
    · intro s x hx h
      rw [acc_cayley s hx, (S.fields x hx s).2.2.1 h]
    · intro s y hy
      obtain ⟨p, q, k1, k2, k3, k4⟩ := acc_pre V hok hall S s hy
      refine ⟨p, q, k1, fun x hx => (hcay s x hx y hy).trans (k2 x hx), ?_, k4, ?_⟩
      · rcases k3 with h | ⟨h1, ⟨h2, h3⟩ | ⟨h2, h3, h4, h5⟩⟩
        · exact .inl h
        · exact .inr ⟨h1, .inl ⟨h2, by rw [acc_cross s h1, h3]⟩⟩
        · exact .inr ⟨h1, .inr ⟨h2, h3, by rw [acc_cross s h1, h4], by rw [acc_cross s h3, h5]⟩⟩
      · unfold Obj.isDoubleCayleyImage
        rw [k1]; rfl
    · intro s x hx
      obtain ⟨p, q, k1, -⟩ := acc_pre V hok hall S s hx
      refine ⟨_, p, q, _, hds s x hx, k1, acc_cayley s hx, ?_⟩
      unfold Obj.anyCayley
      rw [hds s x hx, Res.ok_bind]
      by_cases h : cs.length (cs.simple s * π (e x)) < cs.length (π (e x))
      · rw [decide_eq_true h, if_pos rfl, if_pos rfl, k1]; rfl
      · rw [decide_eq_false h, if_neg (by simp), if_neg (by simp), acc_cayley s hx]
    · intro x hx
      obtain ⟨Rc, h1, h2, h3⟩ := hlenw hx
      obtain ⟨-, l, h4, h5⟩ := hit.ilength _ _ _ h1 h2
      exact ⟨l, h4, by rw [h3, h5]⟩
    · intro x hx
      unfold Obj.weylLength
      rw [acc_involution V hok hall S ho2 ho4' ho1 hx, Res.ok_bind, hW.length]
    · intro x y lx ly hxy hy hlx hly
      have hx : x < N := by omega
      obtain ⟨Rx, h1, h2, h3⟩ := hlenw hx
      obtain ⟨Ry, h4, h5, h6⟩ := hlenw hy
      have := acc_order V hok hall S ho2 ho4' ho1 hxy hy
      rw [h3] at hlx
      rw [h6] at hly
      cases hlx; cases hly
      unfold KLe keyOf at this
      simp only [h1, h2, h4, h5, Option.map_some, Option.getD_some] at this
      rwa [(hit.wLength _ _ _ h1 h2).1, (hit.wLength _ _ _ h4 h5).1] at this
    · intro w
      obtain ⟨i, j, h1, h2, -, h3⟩ := acc_tauPacket V hok hall S ho2 ho3 ho4' ho1 w
      exact ⟨i, j, h1, h2, h3⟩

end Verif.KGB
