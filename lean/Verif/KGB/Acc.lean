import Verif.KGB.Sort2
/-
The accessors of the object that describes the set `K\G/B`.
-/
namespace Verif.KGB
open Verif Verif.F2 Verif.Weyl Verif.Tits Verif.Coxeter CoxeterSystem Verif.BitSet Verif.Perm
set_option linter.unusedSectionVars false

variable {n r : Nat} {Mx : CoxeterMatrix (Fin n)} {G : Type} [Group G]
variable {cs : CoxeterSystem Mx G} {α αv : Fin n → Fin r → Int} {ρ : G →* Module.End ℤ (Fin r → Int)} {δ : Matrix (Fin r) (Fin r) Int} {f : Fin n → Fin n}
variable {𝒯 : Type} [Group 𝒯] {ι : (Fin r → ZMod 2) → 𝒯} {σ : Fin n → 𝒯} {π : 𝒯 →* G} {g : Fin n → Bool} {τ : 𝒯 →* 𝒯} {ψ : 𝒯 → TE}
variable {nd : Bool} {c : TC} {φ : G → List Nat} {it : ITab} {θ : G →* G} {seeds : List 𝒯} {nf : 𝒯 → 𝒯} {N : Nat} {e0 : Nat → 𝒯}
variable {orbits : List (Nat × Nat)} {nInv : Nat} {es : List 𝒯} {L loc fot : List Nat} {e : Nat → 𝒯} {C : Nat → Nat → Fields} {I : Nat → Info}

local notation "E" => Eqv ρ δ ι π
local notation "R" => Reach cs f α δ g ρ ι σ π τ seeds
local notation "NC" => Noncompact cs f α g ι σ π
local notation "OK" => EsOK cs α ρ δ f ι σ π g τ seeds nf
local notation "FOK" => FieldOK cs α f ι σ π g τ nf
local notation "IOK" => InfoOK cs α f ι σ π g

variable (n ψ c N L loc fot e C I) in
/-- the object constructed -/
def objOf : Obj := ⟨grid n N fun t y => fillF (pre C t y N) (C t y), (List.range N).map I, L, loc, fot, (List.range N).map fun x => c.T.leftTorusPart (ψ (e x))⟩

local notation "K" => objOf n ψ c N L loc fot e C I

theorem acc_cross (s : Fin n) {x : Nat} (hx : x < N) : Obj.cross K s x = .ok (C s x).cross := by
  unfold Obj.cross objOf
  rw [get_grid _ s.2, Res.ok_bind, get_range _ hx, Res.ok_bind, (fillF_same _ _).1]; rfl

theorem acc_cayley (s : Fin n) {x : Nat} (hx : x < N) : Obj.cayley K s x = .ok (C s x).cayley := by
  unfold Obj.cayley objOf
  rw [get_grid _ s.2, Res.ok_bind, get_range _ hx, Res.ok_bind, (fillF_same _ _).2]; rfl

theorem acc_inv (s : Fin n) {x : Nat} (hx : x < N) : Obj.inverseCayley K s x = .ok ((fillF (pre C s x N) (C s x)).inv1, (fillF (pre C s x N) (C s x)).inv2) := by
  unfold Obj.inverseCayley objOf
  rw [get_grid _ s.2, Res.ok_bind, get_range _ hx, Res.ok_bind]; rfl

variable (V : Env cs α αv ρ δ f ι σ π g τ ψ nd c φ it θ seeds nf N e0) (hok : EsOK cs α ρ δ f ι σ π g τ seeds nf es) (hall : ∀ a : 𝒯, Reach cs f α δ g ρ ι σ π τ seeds a → nf a ∈ es)
variable (S : Sorted cs α f ι σ π g τ φ it nf N orbits nInv es L loc fot e C I)
variable (ho2 : ∀ i : Nat, i ∈ orbitNrs orbits → i < it.pool.length) (ho3 : it.pool.length ≤ nInv) (ho4 : ∀ a : 𝒯, Reach cs f α δ g ρ ι σ π τ seeds a → it.nr (φ (π a)) ∈ orbitNrs orbits) (hon : (orbitNrs orbits).Nodup)
include V hok S

theorem acc_R {x : Nat} (hx : x < N) : R (e x) ∧ nf (e x) = e x := hok.2 _ (S.mem x hx)

include hall

theorem acc_find {a : 𝒯} (ha : R a) : ∃ x, x < N ∧ e x = nf a := S.surj _ (hall a ha)

theorem acc_eqv {a : 𝒯} (ha : R a) {x : Nat} (hx : x < N) : E a (e x) ↔ e x = nf a := by
  obtain ⟨h1, h2⟩ := acc_R V hok S hx
  rw [V.nf_iff ha h1, h2]; exact eq_comm

theorem acc_system : IsSystem R E N e := by
  refine ⟨fun x hx => (acc_R V hok S hx).1, fun a ha => ?_⟩
  obtain ⟨x, hx, hxe⟩ := acc_find V hok hall S ha
  refine ⟨x, ⟨hx, (acc_eqv V hok hall S ha hx).2 hxe⟩, fun y hy h => ?_⟩
  exact S.inj y x hy hx (((acc_eqv V hok hall S ha hy).1 h).trans hxe.symm)

theorem acc_crossSpec (s : Fin n) {x : Nat} (hx : x < N) : (C s x).cross < N ∧ E (σ s * e x * (τ (σ s))⁻¹) (e (C s x).cross) := by
  have h1 := (S.fields x hx s).1
  exact ⟨h1.1, (acc_eqv V hok hall S ((acc_R V hok S hx).1.cross s) h1.1).2 h1.2⟩

theorem acc_crossRight : ∀ (l : List (Fin n)) (h : 𝒯) (x : Nat), x < N → π h = (cs.wordProd l)⁻¹ →
    ∃ y, Obj.crossRight K (l.map Fin.val) x = .ok y ∧ y < N ∧ E (h * e x * (τ h)⁻¹) (e y)
  | [], h, x, hx, hh => by
    refine ⟨x, rfl, hx, ?_⟩
    have := V.ctx.hL.conj_weyl (e x) h 1 (V.ctx.valid V.valid (acc_R V hok S hx).1) (by rw [hh]; simp)
    simpa using this
  | s :: l, h, x, hx, hh => by
    obtain ⟨h1, h2⟩ := acc_crossSpec V hok hall S s hx
    obtain ⟨y, k1, k2, k3⟩ := acc_crossRight l (h * (σ s)⁻¹) _ h1 (by
      rw [map_mul, hh, map_inv, V.ctx.hT.proj_sigma, cs.wordProd_cons, mul_inv_rev, cs.inv_simple, mul_assoc, cs.simple_mul_simple_self, mul_one])
    refine ⟨y, ?_, k2, ?_⟩
    · rw [List.map_cons, Obj.crossRight, acc_cross s hx, Res.ok_bind, k1]
    · have := V.ctx.hL.trans _ _ _ (V.ctx.hL.conj_eqv _ _ (h * (σ s)⁻¹) h2) k3
      refine cast (congrArg (fun z => E z (e y)) ?_) this
      rw [map_mul, map_inv]
      group

theorem acc_nc_undef (s : Fin n) {x : Nat} (hx : x < N) : (C s x).cayley < N ↔ NC s (e x) := by
  have h1 := S.fields x hx s
  constructor
  · intro h
    by_contra hn
    have := h1.2.2.1 hn
    have := V.small
    unfold undefKGB at *
    omega
  · intro h; exact (h1.2.1 h).1

/-- elements with the same Cayley transform -/
theorem acc_pre (s : Fin n) {y : Nat} (hy : y < N) : ∃ p q, Obj.inverseCayley K s y = .ok (p, q) ∧ (∀ x, x < N → ((C s x).cayley = y ↔ x = p ∨ x = q)) ∧
    (p = undefKGB ∨ p < N ∧ (q = undefKGB ∧ (C s p).cross = p ∨ p < q ∧ q < N ∧ (C s p).cross = q ∧ (C s q).cross = p)) ∧
    (p = undefKGB → q = undefKGB) := by
  have hN := V.small
  have hmem : ∀ x, x ∈ pre C s y N ↔ x < N ∧ (C s x).cayley = y := by
    intro x; unfold pre; rw [List.mem_filter, List.mem_range, decide_eq_true_eq]
  have hnd : (pre C s y N).Pairwise (· < ·) := List.pairwise_lt_range.filter _
  have hNC : ∀ x, x ∈ pre C s y N → NC s (e x) ∧ e y = nf (σ s * e x) := by
    intro x hx
    obtain ⟨h1, h2⟩ := (hmem x).1 hx
    have h3 : NC s (e x) := (acc_nc_undef V hok hall S s h1).1 (by rw [h2]; exact hy)
    have := ((S.fields x h1 s).2.1 h3).2
    rw [h2] at this
    exact ⟨h3, this⟩
  -- the cross action preserves the set
  have hcr : ∀ x, x ∈ pre C s y N → (C s x).cross ∈ pre C s y N := by
    intro x hx
    obtain ⟨h1, h2⟩ := (hmem x).1 hx
    obtain ⟨h3, h4⟩ := hNC x hx
    obtain ⟨j1, j2⟩ := acc_crossSpec V hok hall S s h1
    have hRx := (acc_R V hok S h1).1
    have h5 : NC s (e (C s x).cross) := V.ctx.nc_eqv j2 (V.ctx.nc_cross h3 (V.ctx.valid V.valid hRx))
    obtain ⟨q1, q2⟩ := (S.fields _ j1 s).2.1 h5
    rw [hmem]
    refine ⟨j1, ?_⟩
    have h6 : E (σ s * e x) (σ s * e (C s x).cross) := V.ctx.hL.trans _ _ _ (V.ctx.cayley_cross h3)
      (V.ctx.hL.cayley_eqv _ _ s (by
        have := (V.ctx.nc_cross h3 (V.ctx.valid V.valid hRx)).1
        exact this) j2)
    have h7 := (V.nf_iff (hRx.cayley s h3) ((acc_R V hok S j1).1.cayley s h5)).1 h6
    exact S.inj _ _ q1 hy (by rw [q2, h4, h7])
  -- two elements are equal or exchanged
  have h2 : ∀ x x', x ∈ pre C s y N → x' ∈ pre C s y N → x' = x ∨ x' = (C s x).cross := by
    intro x x' hx hx'
    obtain ⟨h1, -⟩ := (hmem x).1 hx
    obtain ⟨h1', -⟩ := (hmem x').1 hx'
    obtain ⟨h3, h4⟩ := hNC x hx
    obtain ⟨h3', h4'⟩ := hNC x' hx'
    have hRx := (acc_R V hok S h1).1
    have hRx' := (acc_R V hok S h1').1
    have hRc := hRx.cayley s h3
    obtain ⟨-, -, Rc, hRc3⟩ := nr_ok V.ctx V.hit (V.cov _ hRc)
    have hV := V.hit.modSpace _ _ _ (nr_ok V.ctx V.hit (V.cov _ hRc)).2.1 hRc3
    have heq : E (σ s * e x) (σ s * e x') := (V.nf_iff hRc (hRx'.cayley s h3')).2 (by rw [← h4, ← h4'])
    rcases V.ctx.cayley_fibre h3 h3' (V.ctx.valid V.valid hRx) (V.ctx.valid V.valid hRx') ⟨_, hV⟩ heq with h | h
    · left
      have := (acc_eqv V hok hall S hRx h1').1 h
      rw [(acc_R V hok S h1).2] at this
      exact S.inj _ _ h1' h1 this
    · right
      have := (acc_eqv V hok hall S (hRx.cross s) h1').1 h
      rw [← (S.fields x h1 s).1.2] at this
      exact S.inj _ _ h1' (S.fields x h1 s).1.1 this
  refine ⟨_, _, acc_inv s hy, ?_⟩
  have hF := S.fields y hy s
  have hi1 := hF.2.2.2.1
  have hi2 := hF.2.2.2.2
  have hun : ∀ x, x < N → x ≠ undefKGB := by intro x hx; unfold undefKGB; omega
  match hl : pre C s y N, hnd, hmem, hcr, h2 with
  | [], _, hmem, _, _ =>
    have e1 : fillF [] (C s y) = C s y := rfl
    rw [e1, hi1, hi2]
    refine ⟨fun x hx => ?_, .inl rfl, fun _ => rfl⟩
    constructor
    · intro h; have := (hmem x).2 ⟨hx, h⟩; simp at this
    · rintro (h | h) <;> exact absurd h (hun x hx)
  | [p], _, hmem, hcr, h2 =>
    have hp := ((hmem p).1 (by simp))
    have e1 : (fillF [p] (C s y)).inv1 = p ∧ (fillF [p] (C s y)).inv2 = undefKGB := by
      unfold fillF
      rw [List.foldl_cons, if_pos hi1]
      exact ⟨rfl, hi2⟩
    rw [e1.1, e1.2]
    refine ⟨fun x hx => ?_, .inr ⟨hp.1, .inl ⟨rfl, by have := hcr p (by simp); simpa using this⟩⟩, fun h => absurd h (hun p hp.1)⟩
    constructor
    · intro h; have := (hmem x).2 ⟨hx, h⟩; left; simpa using this
    · rintro (h | h)
      · rw [h]; exact hp.2
      · exact absurd h (hun x hx)
  | [p, q], hnd, hmem, hcr, h2 =>
    have hp := ((hmem p).1 (by simp))
    have hq := ((hmem q).1 (by simp))
    have hpq : p < q := by simpa using hnd
    have e1 : (fillF [p, q] (C s y)).inv1 = p ∧ (fillF [p, q] (C s y)).inv2 = q := by
      unfold fillF
      rw [List.foldl_cons, if_pos hi1, List.foldl_cons, if_neg (hun p hp.1)]
      exact ⟨rfl, rfl⟩
    rw [e1.1, e1.2]
    refine ⟨fun x hx => ?_, .inr ⟨hp.1, .inr ⟨hpq, hq.1, ?_, ?_⟩⟩, fun h => absurd h (hun p hp.1)⟩
    · constructor
      · intro h; have := (hmem x).2 ⟨hx, h⟩; simpa using this
      · rintro (h | h)
        · rw [h]; exact hp.2
        · rw [h]; exact hq.2
    · rcases h2 p q (by simp) (by simp) with h | h
      · omega
      · exact h.symm
    · rcases h2 q p (by simp) (by simp) with h | h
      · omega
      · exact h.symm
  | p :: q :: t :: l, hnd, hmem, hcr, h2 =>
    exfalso
    have h3 := h2 p q (by simp) (by simp)
    have h4 := h2 p t (by simp) (by simp)
    rw [List.pairwise_cons, List.pairwise_cons] at hnd
    have := hnd.1 q (by simp)
    have := hnd.1 t (by simp)
    have := hnd.2.1 t (by simp)
    omega

/-! ### involutions -/

include ho2 ho4 hon

theorem acc_lc {x : Nat} (hx : x < N) : lc π φ it L (e x) < L.length ∧ L[lc π φ it L (e x)]? = some (it.nr (φ (π (e x)))) := by
  have h1 : L.idxOf (it.nr (φ (π (e x)))) < L.length := List.idxOf_lt_length_iff.2 (S.perm.mem_iff.2 (ho4 _ (acc_R V hok S hx).1))
  exact ⟨h1, by rw [lc, List.getElem?_eq_getElem h1, List.getElem_idxOf]⟩

theorem acc_Llen : L.length < 2 ^ 32 - 1 := by
  have h1 : L ⊆ List.range it.pool.length := fun i hi => List.mem_range.2 (ho2 i (S.perm.mem_iff.1 hi))
  have := (List.subperm_of_subset (S.perm.nodup_iff.2 hon) h1).length_le
  rw [List.length_range] at this
  have := V.hit.small
  omega

theorem acc_index {x : Nat} (hx : x < N) : Obj.involutionIndex K x = lc π φ it L (e x) := by
  have hl := (acc_lc V hok hall S ho2 ho4 hon hx).1
  have hL := acc_Llen V hok hall S ho2 ho4 hon
  unfold Obj.involutionIndex objOf
  have : fot.findIdx (fun y => decide (x < y)) = lc π φ it L (e x) + 1 := by
    rw [List.findIdx_eq (by rw [S.fotLen]; omega)]
    constructor
    · obtain ⟨m, h1, h2, h3⟩ := S.fotAt (lc π φ it L (e x) + 1) (by omega)
      obtain ⟨h4, h5⟩ := List.getElem?_eq_some_iff.1 h1
      rw [h5, decide_eq_true_eq]
      exact (h3 x hx).2 (by omega)
    · intro j hj
      obtain ⟨m, h1, h2, h3⟩ := S.fotAt j (by omega)
      obtain ⟨h4, h5⟩ := List.getElem?_eq_some_iff.1 h1
      rw [h5, decide_eq_false_iff_not]
      intro h
      have := (h3 x hx).1 h
      omega
  simp only [this]
  omega

theorem acc_nr {x : Nat} (hx : x < N) : Obj.invNr K x = .ok (it.nr (φ (π (e x)))) := by
  unfold Obj.invNr
  rw [acc_index V hok hall S ho2 ho4 hon hx]
  exact get_some (acc_lc V hok hall S ho2 ho4 hon hx).2

theorem acc_involution {x : Nat} (hx : x < N) : Obj.involution nd K it x = .ok (φ (π (e x))) := by
  unfold Obj.involution
  rw [acc_nr V hok hall S ho2 ho4 hon hx, Res.ok_bind]
  exact involution_ok V.ctx V.hit (nr_ok V.ctx V.hit (V.cov _ (acc_R V hok S hx).1)).2.1

theorem acc_tits {x : Nat} (hx : x < N) : Obj.titsElt nd K c it x = .ok (ψ (e x)) := by
  unfold Obj.titsElt
  rw [show Vec.get (objOf n ψ c N L loc fot e C I).torusPart x = .ok (c.T.leftTorusPart (ψ (e x))) from get_range _ hx, Res.ok_bind,
    acc_involution V hok hall S ho2 ho4 hon hx, Res.ok_bind, ← V.ctx.hI.weyl]
  rfl

/-- record of the involution -/
theorem acc_record {x : Nat} (hx : x < N) : ∃ Rc, it.pool[it.nr (φ (π (e x)))]? = some (φ (π (e x))) ∧ it.recs[it.nr (φ (π (e x)))]? = some Rc ∧
    Obj.length nd K it x = .ok Rc.length := by
  obtain ⟨-, h1, Rc, h2⟩ := nr_ok V.ctx V.hit (V.cov _ (acc_R V hok S hx).1)
  refine ⟨Rc, h1, h2, ?_⟩
  unfold Obj.length
  rw [acc_nr V hok hall S ho2 ho4 hon hx, Res.ok_bind, record_ok V.ctx V.hit h2]; rfl

theorem acc_order {x y : Nat} (hxy : x ≤ y) (hy : y < N) : KLe (keyOf it (it.nr (φ (π (e x))))) (keyOf it (it.nr (φ (π (e y))))) := by
  have hx : x < N := by omega
  have h1 := (acc_lc V hok hall S ho2 ho4 hon hx).2
  have h2 := (acc_lc V hok hall S ho2 ho4 hon hy).2
  have h3 := S.mono x y hxy hy
  rcases Nat.lt_or_ge (lc π φ it L (e x)) (lc π φ it L (e y)) with h | h
  · obtain ⟨p1, p2⟩ := List.getElem?_eq_some_iff.1 h1
    obtain ⟨p3, p4⟩ := List.getElem?_eq_some_iff.1 h2
    have := List.pairwise_iff_getElem.1 S.ordered _ _ p1 p3 h
    rwa [p2, p4] at this
  · have h5 : lc π φ it L (e x) = lc π φ it L (e y) := by omega
    rw [h5, h2] at h1
    rw [Option.some.inj h1]
    unfold KLe
    exact .inr ⟨rfl, .inr ⟨rfl, le_refl _⟩⟩

theorem acc_same {x y : Nat} (hx : x < N) (hy : y < N) : lc π φ it L (e x) = lc π φ it L (e y) ↔ π (e x) = π (e y) := by
  have h1 := (acc_lc V hok hall S ho2 ho4 hon hx).2
  have h2 := (acc_lc V hok hall S ho2 ho4 hon hy).2
  constructor
  · intro h
    rw [h, h2] at h1
    have h3 := (nr_ok V.ctx V.hit (V.cov _ (acc_R V hok S hx).1)).2.1
    have h4 := (nr_ok V.ctx V.hit (V.cov _ (acc_R V hok S hy).1)).2.1
    rw [Option.some.inj h1, h3] at h4
    exact V.ctx.hW.injective (Option.some.inj h4)
  · intro h; unfold lc; rw [h]

/-- interval of the elements at a place -/
theorem acc_interval {k : Nat} (hk : k < L.length) : ∃ i j, fot[k]? = some i ∧ fot[k + 1]? = some j ∧ i ≤ j ∧ j ≤ N ∧
    ∀ x, (i ≤ x ∧ x < j) ↔ (x < N ∧ lc π φ it L (e x) = k) := by
  obtain ⟨i, h1, h2, h3⟩ := S.fotAt k (by omega)
  obtain ⟨j, h4, h5, h6⟩ := S.fotAt (k + 1) (by omega)
  refine ⟨i, j, h1, h4, ?_, h5, fun x => ?_⟩
  · by_contra h
    have hj : j < N := by omega
    have := (h3 j hj).1 (by omega)
    have := (h6 j hj).2 (by omega)
    omega
  · constructor
    · rintro ⟨q1, q2⟩
      have hx : x < N := by omega
      have := (h6 x hx).1 q2
      have := (h3 x hx)
      exact ⟨hx, by omega⟩
    · rintro ⟨hx, q⟩
      have := (h6 x hx).2 (by omega)
      have := (h3 x hx)
      exact ⟨by omega, by omega⟩

theorem acc_packet {x : Nat} (hx : x < N) : ∃ i j, Obj.packet K x = .ok (i, j) ∧ ∀ y, i ≤ y ∧ y < j ↔ y < N ∧ π (e y) = π (e x) := by
  obtain ⟨i, j, h1, h2, -, -, h3⟩ := acc_interval V hok hall S ho2 ho4 hon (acc_lc V hok hall S ho2 ho4 hon hx).1
  refine ⟨i, j, ?_, fun y => ?_⟩
  · unfold Obj.packet
    rw [acc_index V hok hall S ho2 ho4 hon hx]
    simp only []
    rw [show Vec.get (objOf n ψ c N L loc fot e C I).firstOfTau _ = .ok i from get_some h1, Res.ok_bind,
      show Vec.get (objOf n ψ c N L loc fot e C I).firstOfTau _ = .ok j from get_some h2, Res.ok_bind]
    rfl
  · rw [h3]
    constructor
    · rintro ⟨q1, q2⟩; exact ⟨q1, (acc_same V hok hall S ho2 ho4 hon q1 hx).1 q2⟩
    · rintro ⟨q1, q2⟩; exact ⟨q1, (acc_same V hok hall S ho2 ho4 hon q1 hx).2 q2⟩

include ho3

theorem acc_tauPacket (w : G) : ∃ i j, Obj.tauPacket K it (φ w) = .ok (i, j) ∧ i ≤ j ∧ j ≤ N ∧ Obj.packetSize K it (φ w) = .ok (j - i) ∧
    ∀ x, i ≤ x ∧ x < j ↔ x < N ∧ π (e x) = w := by
  have hN := V.small
  by_cases hw : φ w ∈ it.pool
  · have hu := (nr_iff V.ctx V.hit).1 hw
    obtain ⟨h1, h2, Rc, h3⟩ := nr_ok V.ctx V.hit hw
    by_cases hL : it.nr (φ w) ∈ L
    · obtain ⟨k, hk⟩ := List.mem_iff_getElem?.1 hL
      have hkl := (List.getElem?_eq_some_iff.1 hk).1
      have hL' := acc_Llen V hok hall S ho2 ho4 hon
      have hku : k ≠ undefKGB := by unfold undefKGB; omega
      obtain ⟨i, j, q1, q2, q3, q4, q5⟩ := acc_interval V hok hall S ho2 ho4 hon hkl
      refine ⟨i, j, ?_, q3, q4, ?_, fun x => ?_⟩
      · unfold Obj.tauPacket
        rw [if_neg hu, show Vec.get (objOf n ψ c N L loc fot e C I).invLoc _ = .ok k from get_some (S.locAt _ _ hk), Res.ok_bind, if_neg hku,
          show Vec.get (objOf n ψ c N L loc fot e C I).firstOfTau _ = .ok i from get_some q1, Res.ok_bind,
          show Vec.get (objOf n ψ c N L loc fot e C I).firstOfTau _ = .ok j from get_some q2, Res.ok_bind]
        rfl
      · unfold Obj.packetSize
        rw [if_neg hu, show Vec.get (objOf n ψ c N L loc fot e C I).invLoc _ = .ok k from get_some (S.locAt _ _ hk), Res.ok_bind, if_neg hku,
          show Vec.get (objOf n ψ c N L loc fot e C I).firstOfTau _ = .ok j from get_some q2, Res.ok_bind,
          show Vec.get (objOf n ψ c N L loc fot e C I).firstOfTau _ = .ok i from get_some q1, Res.ok_bind, Res.pure_eq,
          show j + 4294967296 - i = (j - i) + 4294967296 by omega, Nat.add_mod_right, Nat.mod_eq_of_lt (by omega)]
      · rw [q5]
        have key : ∀ x, x < N → (lc π φ it L (e x) = k ↔ π (e x) = w) := by
          intro x hx
          have h4 := (acc_lc V hok hall S ho2 ho4 hon hx).2
          constructor
          · intro h
            rw [h, hk] at h4
            have h5 := (nr_ok V.ctx V.hit (V.cov _ (acc_R V hok S hx).1)).2.1
            rw [← Option.some.inj h4, h2] at h5
            exact (V.ctx.hW.injective (Option.some.inj h5)).symm
          · intro h
            rw [h] at h4
            obtain ⟨p1, p2⟩ := List.getElem?_eq_some_iff.1 h4
            obtain ⟨p3, p4⟩ := List.getElem?_eq_some_iff.1 hk
            exact ((S.perm.nodup_iff.2 hon).getElem_inj_iff).1 (p2.trans p4.symm)
        constructor
        · rintro ⟨p, q⟩; exact ⟨p, (key x p).1 q⟩
        · rintro ⟨p, q⟩; exact ⟨p, (key x p).2 q⟩
    · have hloc := S.locNot _ (show it.nr (φ w) < nInv by omega) hL
      refine ⟨0, 0, ?_, le_rfl, Nat.zero_le _, ?_, fun x => ?_⟩
      · unfold Obj.tauPacket
        rw [if_neg hu, show Vec.get (objOf n ψ c N L loc fot e C I).invLoc _ = .ok undefKGB from get_some hloc, Res.ok_bind, if_pos rfl]; rfl
      · unfold Obj.packetSize
        rw [if_neg hu, show Vec.get (objOf n ψ c N L loc fot e C I).invLoc _ = .ok undefKGB from get_some hloc, Res.ok_bind, if_pos rfl]; rfl
      · constructor
        · rintro ⟨-, h⟩; omega
        · rintro ⟨hx, h⟩
          exact absurd (S.perm.mem_iff.2 (h ▸ ho4 _ (acc_R V hok S hx).1)) hL
  · have hu : it.nr (φ w) = undefKGB := by
      by_contra h; exact hw ((nr_iff V.ctx V.hit).2 h)
    refine ⟨0, 0, by rw [Obj.tauPacket, if_pos hu], le_rfl, Nat.zero_le _, by rw [Obj.packetSize, if_pos hu], fun x => ?_⟩
    constructor
    · rintro ⟨-, h⟩; omega
    · rintro ⟨hx, h⟩
      exact absurd (h ▸ V.cov _ (acc_R V hok S hx).1) hw

theorem acc_lookupLoop {b : 𝒯} : ∀ (m x : Nat), x + m ≤ N → (∀ y, x ≤ y → y < x + m → π (e y) = π b) →
    ∃ y, Obj.lookupLoop nd K c it (c.T.leftTorusPart (ψ b)) m x = .ok y ∧ (∀ z, x ≤ z → z < x + m → e z = b → y = z) ∧
      ((∀ z, x ≤ z → z < x + m → e z ≠ b) → y = undefKGB)
  | 0, x, _, _ => ⟨undefKGB, rfl, fun z h1 h2 => by omega, fun _ => rfl⟩
  | m + 1, x, hm, h => by
    have hx : x < N := by omega
    obtain ⟨y, k1, k2, k3⟩ := acc_lookupLoop (b := b) m (x + 1) (by omega) (fun y h1 h2 => h y (by omega) (by omega))
    obtain ⟨q, q1, -, q2⟩ := V.ctx.hI.eq (e x) b
    rw [TE.eq, if_pos (by rw [V.ctx.hI.weyl, V.ctx.hI.weyl, h x le_rfl (by omega)])] at q1
    have hq : (c.T.leftTorusPart (ψ (e x))).eq nd (c.T.leftTorusPart (ψ b)) = .ok q := q1
    rw [Obj.lookupLoop, acc_tits V hok hall S ho2 ho4 hon hx, Res.ok_bind, hq, Res.ok_bind]
    by_cases c1 : q = true
    · have hex := q2.1 c1
      refine ⟨x, by rw [if_pos c1]; rfl, fun z h1 h2 h3 => S.inj _ _ hx (by omega) (hex.trans h3.symm), fun h1 => absurd hex (h1 x le_rfl (by omega))⟩
    · have hex : e x ≠ b := fun h => c1 (q2.2 h)
      refine ⟨y, by rw [if_neg c1, k1], fun z h1 h2 h3 => ?_, fun h1 => k3 fun z h2 h3 => h1 z (by omega) (by omega)⟩
      have : z ≠ x := by rintro rfl; exact hex h3
      exact k2 z (by omega) (by omega) h3

theorem acc_lookup (a : 𝒯) (ha : φ (π a) ∈ it.pool) : ∃ y, Obj.lookup nd K c it (ψ a) = .ok y ∧ (∀ x, x < N → E a (e x) → y = x) ∧
    ((∀ x, x < N → ¬ E a (e x)) → y = undefKGB) := by
  obtain ⟨h1, h2, h3⟩ := V.nf a ha
  have hpi : π (nf a) = π a := h2.pi V.ctx.hT
  obtain ⟨i, j, k1, k2, k3, -, k4⟩ := acc_tauPacket V hok hall S ho2 ho3 ho4 hon (π (nf a))
  obtain ⟨y, q1, q2, q3⟩ := acc_lookupLoop V hok hall S ho2 ho3 ho4 hon (b := nf a) (j - i) i (by omega) (fun y p1 p2 => ((k4 y).1 ⟨p1, by omega⟩).2)
  have key : ∀ x, x < N → (E a (e x) ↔ e x = nf a) := by
    intro x hx
    obtain ⟨p1, p2⟩ := acc_R V hok S hx
    rw [h3 (e x) (V.cov _ p1), p2]
    exact eq_comm
  refine ⟨y, ?_, fun x hx he => ?_, fun h => ?_⟩
  · unfold Obj.lookup
    rw [h1, Res.ok_bind, V.ctx.hI.weyl, k1, Res.ok_bind]
    exact q1
  · have hex := (key x hx).1 he
    have := (k4 x).2 ⟨hx, by rw [hex]⟩
    exact q2 x this.1 (by omega) hex
  · refine q3 fun z p1 p2 hz => ?_
    have := (k4 z).1 ⟨p1, by omega⟩
    exact h z this.1 ((key z this.1).2 hz)

end Verif.KGB
