import Verif.Inv.Table
/-
The collection of orbits: what is true after every sequence of additions.
-/
set_option linter.unusedSectionVars false

namespace Verif.Inv
open Verif Verif.Root Verif.Mat Verif.Datum Verif.Weyl Verif.Coxeter CoxeterSystem
open scoped Matrix

variable {n r : Nat} {Mx : CoxeterMatrix (Fin n)} {G : Type} [Group G]
variable {nd : Bool} {cs : CoxeterSystem Mx G} {α αv : Fin n → Fin r → ℤ} {comps : List Comp} {pc : Bool} {rd : RD} {N : Nat} {R R' : Nat → Fin n → ℤ}
  {T : TWG} {φ : G → List Nat} {f : Fin n → Fin n} {θ : G →* G} {δ : Matrix (Fin r) (Fin r) ℤ} {A : G →* Matrix (Fin r) (Fin r) ℤ}

/-- the orbits follow one another -/
def Chain : Nat → List Orbit → Nat → Prop
  | a, [], b => a = b
  | a, o :: l, b => o.start = a ∧ 0 < o.size ∧ Chain (a + o.size) l b

theorem Chain.le {l : List Orbit} : ∀ {a b : Nat}, Chain a l b → a + l.length ≤ b := by
  induction l with
  | nil => intro a b h; have : a = b := h; simp [this]
  | cons o l ih => intro a b h; have := ih h.2.2; have := h.2.1; simp only [List.length_cons]; omega

theorem Chain.append {l : List Orbit} : ∀ {a b : Nat}, Chain a l b → ∀ o : Orbit, o.start = b → 0 < o.size → Chain a (l ++ [o]) (b + o.size) := by
  induction l with
  | nil => intro a b h o h1 h2; have : a = b := h; exact ⟨by rw [h1, this], h2, by rw [this]; rfl⟩
  | cons p l ih => intro a b h o h1 h2; exact ⟨h.1, h.2.1, ih h.2.2 o h1 h2⟩

theorem Chain.get {l : List Orbit} : ∀ {a b : Nat}, Chain a l b → ∀ (j : Nat) (o : Orbit), l[j]? = some o → a ≤ o.start ∧ 0 < o.size ∧ o.start + o.size ≤ b := by
  induction l with
  | nil => intro a b h j o hj; simp at hj
  | cons p l ih =>
    intro a b h j o hj
    cases j with
    | zero =>
      cases hj
      have := Chain.le h.2.2
      have h1 := h.1
      exact ⟨by omega, h.2.1, by omega⟩
    | succ j =>
      have := ih h.2.2 j o (by simpa using hj)
      exact ⟨by omega, this.2⟩

theorem Chain.next {l : List Orbit} : ∀ {a b : Nat}, Chain a l b → ∀ (j : Nat) (o p : Orbit), l[j]? = some o → l[j + 1]? = some p → p.start = o.start + o.size := by
  induction l with
  | nil => intro a b h j o p hj; simp at hj
  | cons q l ih =>
    intro a b h j o p hj hp
    cases j with
    | zero =>
      cases hj
      cases l with
      | nil => simp at hp
      | cons q' l => cases hp; rw [h.2.2.1, h.1]
    | succ j => exact ih h.2.2 j o p (by simpa using hj) (by simpa using hp)

theorem Chain.last {l : List Orbit} : ∀ {a b : Nat}, Chain a l b → ∀ o : Orbit, l[l.length - 1]? = some o → o.start + o.size = b := by
  induction l with
  | nil => intro a b h o ho; simp at ho
  | cons q l ih =>
    intro a b h o ho
    cases l with
    | nil => cases ho; have h1 := h.1; have h2 : a + q.size = b := h.2.2; omega
    | cons q' l => exact ih h.2.2 o (by simpa using ho)

theorem Chain.first {l : List Orbit} {a b : Nat} (h : Chain a l b) {o : Orbit} (ho : l[0]? = some o) : o.start = a := by
  cases l with
  | nil => simp at ho
  | cons q l => cases ho; exact h.1

theorem contains_iff {o : Orbit} (h : o.start + o.size < 4294967296) {i : Nat} (hi : i < 4294967296) :
    o.contains i = true ↔ o.start ≤ i ∧ i < o.start + o.size := by
  rw [Orbit.contains, decide_eq_true_iff]
  by_cases hs : o.start ≤ i
  · rw [show i + 4294967296 - o.start = (i - o.start) + 4294967296 by omega, Nat.add_mod_right, Nat.mod_eq_of_lt (by omega)]
    omega
  · rw [Nat.mod_eq_of_lt (by omega)]
    omega

/-- what the object `o` holds after classes `cls` were added -/
structure OGood (cs : CoxeterSystem Mx G) (α αv : Fin n → Fin r → ℤ) (rd : RD) (N : Nat) (R : Nat → Fin n → ℤ) (T : TWG) (φ : G → List Nat) (θ : G →* G)
    (δ : Matrix (Fin r) (Fin r) ℤ) (A : G →* Matrix (Fin r) (Fin r) ℤ) (c : Nat → G) (K : Nat) (cls : List Nat) (ws : List G) (o : Orbits) : Prop where
  tab : Good cs α αv rd N R T φ θ δ A ws o.tab
  mem : ∀ x, x ∈ ws ↔ ∃ cn ∈ cls, InClass θ (c cn) x
  nodup : cls.Nodup
  lt : ∀ cn ∈ cls, cn < K
  index_length : o.index.length = K
  index : ∀ cn < K, o.index[cn]? = some (if cn ∈ cls then cls.idxOf cn else Orbits.undefd)
  chain : Chain 0 o.orbit ws.length
  orbits : o.orbit.map Orbit.cls = cls
  range : ∀ (j : Nat) b, o.orbit[j]? = some b → b.size = Nat.card {w // InClass θ (c b.cls) w} ∧
    ∀ (i : Nat) w, ws[i]? = some w → (b.start ≤ i ∧ i < b.start + b.size ↔ InClass θ (c b.cls) w)

section
variable {c : Nat → G} {K : Nat} {cls : List Nat} {ws : List G} {o : Orbits} (g : OGood cs α αv rd N R T φ θ δ A c K cls ws o)
include g

theorem OGood.closed (ht : IsTwist cs f θ) : ∀ w ∈ ws, ∀ s, sc cs θ s w ∈ ws := fun w hw s => by
  obtain ⟨cn, h1, h2⟩ := (g.mem w).1 hw
  exact (g.mem _).2 ⟨cn, h1, inClass_sc ht h2 s⟩

theorem OGood.length_eq : o.orbit.length = cls.length := by rw [← g.orbits, List.length_map]

theorem OGood.length_le : cls.length ≤ ws.length := by
  have := Chain.le g.chain
  rw [g.length_eq] at this
  omega
end

variable (H : Input nd cs α αv comps pc rd N R R' T φ f θ δ A)
include H

theorem Input.ogood_add {c : Nat → G} {classes : List (List Nat × Nat)} (hc : IsClasses φ θ classes c) {cls : List Nat} {ws : List G} {o : Orbits}
    {K : Nat} (hK : K ≤ classes.length)
    (g : OGood cs α αv rd N R T φ θ δ A c K cls ws o) {fuel : Nat} (hf : ∀ w, cs.length w < fuel) (hf2 : Nat.card {w // IsTI θ w} < fuel)
    {cn : Nat} (hcn : cn < K) :
    ∃ o' ws', Orbits.add nd fuel classes o cn = .ok o' ∧ OGood cs α αv rd N R T φ θ δ A c K (if cn ∈ cls then cls else cls ++ [cn]) ws' o' ∧
      (cn ∈ cls → o' = o) ∧ ws <+: ws' := by
  unfold Orbits.add
  rw [Res.assertIn_bind nd (by rw [g.index_length]; simpa using hcn), Perm.Vec.get_of (g.index cn hcn), Res.ok_bind]
  have hlen := g.length_le
  have hsz := H.size_lt g.tab
  by_cases hm : cn ∈ cls
  · simp only [if_pos hm]
    rw [if_pos (by
      have := List.idxOf_lt_length_iff.2 hm
      simp only [Orbits.undefd, ne_eq]
      omega)]
    exact ⟨o, ws, rfl, g, fun _ => rfl, List.prefix_rfl⟩
  · simp only [if_neg hm]
    rw [if_neg (by simp)]
    have hcK : cn < classes.length := by omega
    have hcn' : c cn ∉ ws := fun h => by
      obtain ⟨d, h1, h2⟩ := (g.mem _).1 h
      have := hc.different d (by have := g.lt d h1; omega) cn hcK h2
      exact hm (this ▸ h1)
    obtain ⟨t', cur, a1, a2, a3, a4⟩ := H.orbitMake (cn := cn) g.tab (hc.isTI cn hcK) hf hf2 (g.closed H.twist) hcn'
    have hget := List.getElem?_eq_getElem hcK
    rw [hc.rep cn _ hget] at hget
    refine ⟨⟨t', o.orbit ++ [⟨cn, ws.length, Nat.card {w // InClass θ (c cn) w}⟩], o.index.set cn o.orbit.length⟩, ws ++ cur, ?_, ?_, fun h => absurd h hm, List.prefix_append ..⟩
    · rw [Vec.put_ok (by rw [g.index_length]; exact hcn), Res.ok_bind, Perm.Vec.get_of hget, Res.ok_bind]
      simp only []
      rw [a1, Res.ok_bind]
    · have hpos : 0 < cur.length := List.length_pos_of_mem ((a3 _).2 (inClass_refl (c cn)))
      refine ⟨a2, fun x => ?_, ?_, fun d hd => ?_, by simp [g.index_length], fun d hd => ?_, ?_, by simp [g.orbits], fun j b hb => ?_⟩
      · rw [List.mem_append, g.mem, a3]
        constructor
        · rintro (⟨d, h1, h2⟩ | h)
          · exact ⟨d, List.mem_append_left _ h1, h2⟩
          · exact ⟨cn, by simp, h⟩
        · rintro ⟨d, h1, h2⟩
          rcases List.mem_append.1 h1 with h1 | h1
          · exact .inl ⟨d, h1, h2⟩
          · rw [List.mem_singleton.1 h1] at h2
            exact .inr h2
      · rw [List.nodup_append]
        exact ⟨g.nodup, by simp, fun x hx y hy e => hm (by rw [← List.mem_singleton.1 hy, ← e]; exact hx)⟩
      · rcases List.mem_append.1 hd with hd | hd
        · exact g.lt d hd
        · rw [List.mem_singleton.1 hd]; exact hcn
      · by_cases e : d = cn
        · subst e
          rw [List.getElem?_set_self (by rw [g.index_length]; exact hd), if_pos (by simp), g.length_eq]
          rw [List.idxOf_append_of_notMem hm]
          simp
        · rw [List.getElem?_set_ne (Ne.symm e), g.index d hd]
          by_cases hd' : d ∈ cls
          · rw [if_pos hd', if_pos (List.mem_append_left _ hd'), List.idxOf_append_of_mem hd']
          · rw [if_neg hd', if_neg (by simp [hd', e])]
      · rw [List.length_append, a4]
        exact Chain.append g.chain _ rfl (by rw [← a4]; exact hpos)
      · by_cases hj : j < o.orbit.length
        · rw [List.getElem?_append_left hj] at hb
          have hb' := Chain.get g.chain j b hb
          refine ⟨(g.range j b hb).1, fun i w hi => ?_⟩
          by_cases hi' : i < ws.length
          · rw [List.getElem?_append_left hi'] at hi
            exact (g.range j b hb).2 i w hi
          · refine iff_of_false (by omega) fun hin => ?_
            rw [List.getElem?_append_right (by omega)] at hi
            have h1 := (a3 w).1 (List.mem_of_getElem? hi)
            have h2 : b.cls ∈ cls := by rw [← g.orbits]; exact List.mem_map_of_mem (List.mem_of_getElem? hb)
            have := hc.different b.cls (by have := g.lt _ h2; omega) cn hcK (inClass_trans hin (inClass_symm h1))
            exact hm (this ▸ h2)
        · rw [List.getElem?_append_right (by omega)] at hb
          have hj' : j - o.orbit.length = 0 := by
            by_contra hne
            rw [List.getElem?_eq_none (by simp; omega)] at hb
            cases hb
          rw [hj'] at hb
          cases hb
          refine ⟨rfl, fun i w hi => ?_⟩
          by_cases hi' : i < ws.length
          · refine iff_of_false (by simp only []; omega) fun hin => ?_
            rw [List.getElem?_append_left hi'] at hi
            have := (List.nodup_append.1 a2.nodup).2.2 w (List.mem_of_getElem? hi) w ((a3 w).2 hin)
            exact this rfl
          · have hl := (List.getElem?_eq_some_iff.1 hi).1
            rw [List.getElem?_append_right (by omega)] at hi
            rw [List.length_append, a4] at hl
            exact iff_of_true ⟨by simp only []; omega, by simp only []; omega⟩ ((a3 w).1 (List.mem_of_getElem? hi))

/-- the object made with `K` places, before any class is added -/
theorem Input.ogood_make (c : Nat → G) (K : Nat) : ∃ o, Orbits.make nd rd (enc δ) T = .ok o ∧ OGood cs α αv rd N R T φ θ δ A c K [] [] (o.setSize K) := by
  obtain ⟨t, h1, h2⟩ := H.tabMake
  refine ⟨⟨t, [], []⟩, by unfold Orbits.make; rw [h1, Res.ok_bind], h2, by simp, by simp, by simp, ?_, fun cn hcn => ?_, rfl, rfl, by simp [Orbits.setSize]⟩
  · simp [Orbits.setSize, resize]
  · simp [Orbits.setSize, resize, hcn]

section
variable {c : Nat → G} {K : Nat} {cls : List Nat} {ws : List G} {o : Orbits} (g : OGood cs α αv rd N R T φ θ δ A c K cls ws o)
include g

theorem Input.orbits_get {cn : Nat} (hcn : cn ∈ cls) : ∃ b, o.get nd cn = .ok b ∧ b.cls = cn ∧ o.orbit[cls.idxOf cn]? = some b := by
  have hi := List.idxOf_lt_length_iff.2 hcn
  have hl := g.length_eq
  have hlen := g.length_le
  have hsz := H.size_lt g.tab
  have hb := List.getElem?_eq_getElem (l := o.orbit) (i := cls.idxOf cn) (by omega)
  refine ⟨_, ?_, ?_, hb⟩
  · unfold Orbits.get
    rw [Perm.Vec.get_of (g.index cn (g.lt cn hcn)), Res.ok_bind, if_pos hcn, Res.assertIn_bind nd (decide_eq_true (by unfold Orbits.undefd; omega)), Perm.Vec.get_of hb]
  · have : (o.orbit.map Orbit.cls)[cls.idxOf cn]? = some cn := by
      rw [g.orbits, List.getElem?_eq_getElem hi, List.getElem_idxOf]
    rw [List.getElem?_map, hb] at this
    exact Option.some.inj this

omit H in
theorem OGood.locateLoop {i : Nat} : ∀ (k low high : Nat), high - low < k → low < high → high ≤ o.orbit.length →
    (∀ b, o.orbit[low]? = some b → b.start ≤ i) → (∀ b, o.orbit[high]? = some b → i < b.start) →
    ∃ j, o.locateLoop i k low high = .ok j ∧ j < o.orbit.length ∧ (∀ b, o.orbit[j]? = some b → b.start ≤ i) ∧ (∀ b, o.orbit[j + 1]? = some b → i < b.start) := by
  intro k
  induction k with
  | zero => intro low high h; omega
  | succ k ih =>
    intro low high h1 h2 h3 h4 h5
    unfold Orbits.locateLoop
    by_cases hd : high - low > 1
    · rw [if_pos hd]
      have hb := List.getElem?_eq_getElem (l := o.orbit) (i := (low + high) / 2) (by omega)
      simp only []
      rw [Perm.Vec.get_of hb, Res.ok_bind]
      by_cases hs : i < (o.orbit[(low + high) / 2]'(by omega)).start
      · rw [if_pos hs]
        exact ih low _ (by omega) (by omega) (by omega) h4 (fun b e => by rw [hb] at e; cases e; exact hs)
      · rw [if_neg hs]
        exact ih _ high (by omega) (by omega) h3 (fun b e => by rw [hb] at e; cases e; omega) h5
    · rw [if_neg hd]
      have : high = low + 1 := by omega
      subst this
      exact ⟨low, rfl, by omega, h4, h5⟩

theorem Input.orbits_locate {i : Nat} {w : G} (hi : ws[i]? = some w) : ∃ j b, o.locate nd i = .ok j ∧ o.orbit[j]? = some b ∧ InClass θ (c b.cls) w := by
  have hil := (List.getElem?_eq_some_iff.1 hi).1
  have hsz := H.size_lt g.tab
  have hpos : 0 < o.orbit.length := by
    by_contra h0
    have e : o.orbit = [] := List.length_eq_zero_iff.1 (by omega)
    have := g.chain
    rw [e] at this
    have : 0 = ws.length := this
    omega
  have hlast := List.getElem?_eq_getElem (l := o.orbit) (i := o.orbit.length - 1) (by omega)
  have hl := Chain.last g.chain _ hlast
  obtain ⟨j, h1, h2, h3, h4⟩ := g.locateLoop (i := i) (o.orbit.length + 1) 0 o.orbit.length (by omega) hpos le_rfl
    (fun b hb => by rw [Chain.first g.chain hb]; omega) (fun b hb => by rw [List.getElem?_eq_none (by omega)] at hb; cases hb)
  have hb := List.getElem?_eq_getElem h2
  have hr := Chain.get g.chain j _ hb
  have hin : o.orbit[j].start ≤ i ∧ i < o.orbit[j].start + o.orbit[j].size := by
    refine ⟨h3 _ hb, ?_⟩
    by_cases hj : j + 1 < o.orbit.length
    · have hb' := List.getElem?_eq_getElem hj
      rw [← Chain.next g.chain j _ _ hb hb']
      exact h4 _ hb'
    · have : j = o.orbit.length - 1 := by omega
      subst this
      rw [hl]; exact hil
  refine ⟨j, _, ?_, hb, (((g.range j _ hb).2 i w hi).1 hin)⟩
  unfold Orbits.locate
  simp only []
  rw [List.getLast?_eq_getElem?, hlast]
  simp only []
  rw [Res.assertIn_bind nd (by rw [Orbit.stop, hl, Nat.mod_eq_of_lt (by omega)]; simpa using hil), h1, Res.ok_bind,
    Res.assertIn_bind nd (by simpa using h2), Perm.Vec.get_of hb, Res.ok_bind,
    Res.assertIn_bind nd ((contains_iff (by omega) (by omega)).2 hin)]

theorem Input.orbits_class {i : Nat} {w : G} (hi : ws[i]? = some w) : ∃ cn, o.cartanClass nd i = .ok cn ∧ cn ∈ cls ∧ InClass θ (c cn) w := by
  obtain ⟨j, b, h1, h2, h3⟩ := H.orbits_locate g hi
  refine ⟨b.cls, ?_, ?_, h3⟩
  · unfold Orbits.cartanClass
    rw [h1, Res.ok_bind, Perm.Vec.get_of h2, Res.ok_bind]
  · rw [← g.orbits]; exact List.mem_map_of_mem (List.mem_of_getElem? h2)

end

end Verif.Inv
