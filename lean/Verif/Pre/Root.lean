import Verif.Pre.Spec
import Mathlib.Data.Fintype.Pigeonhole
import Mathlib.Logic.Function.Iterate
import Mathlib.Order.Lattice.Nat
/-
Roots in a forest given by parent references.
-/
namespace Verif.Pre

/-- following `f` from `v` one comes to `r`, which is fixed -/
def RootIs (f : Nat → Nat) (v r : Nat) : Prop := (∃ k, f^[k] v = r) ∧ f r = r

variable {f : Nat → Nat}

theorem iter_fix {r : Nat} (h : f r = r) (k : Nat) : f^[k] r = r := Function.iterate_fixed h k

theorem RootIs.unique {v r s : Nat} (h : RootIs f v r) (h' : RootIs f v s) : r = s := by
  obtain ⟨⟨k, hk⟩, hr⟩ := h
  obtain ⟨⟨l, hl⟩, hs⟩ := h'
  rcases Nat.le_total k l with hkl | hkl
  · obtain ⟨m, rfl⟩ := Nat.exists_eq_add_of_le hkl
    rw [Nat.add_comm, Function.iterate_add_apply, hk, iter_fix hr] at hl
    exact hl
  · obtain ⟨m, rfl⟩ := Nat.exists_eq_add_of_le hkl
    rw [Nat.add_comm, Function.iterate_add_apply, hl, iter_fix hs] at hk
    exact hk.symm

theorem RootIs.step {v r : Nat} (h : RootIs f v r) : RootIs f (f v) r := by
  obtain ⟨⟨k, hk⟩, hr⟩ := h
  exact ⟨⟨k, by rw [← Function.iterate_succ_apply, Function.iterate_succ_apply', hk, hr]⟩, hr⟩

theorem RootIs.self {r : Nat} (h : f r = r) : RootIs f r r := ⟨⟨0, rfl⟩, h⟩

theorem RootIs.back {v r : Nat} (h : RootIs f (f v) r) : RootIs f v r := by
  obtain ⟨⟨k, hk⟩, hr⟩ := h
  exact ⟨⟨k + 1, hk⟩, hr⟩

/-- within `n` numbers less than `n` steps lead to the root -/
theorem RootIs.bounded {n v r : Nat} (hf : ∀ x < n, f x < n) (hv : v < n) (h : RootIs f v r) :
    ∃ k < n, f^[k] v = r := by
  classical
  have hlt : ∀ k, f^[k] v < n := by
    intro k
    induction k with
    | zero => exact hv
    | succ k ih => rw [Function.iterate_succ_apply']; exact hf _ ih
  have hk := Nat.find_spec h.1
  have hmin := fun m (hm : m < Nat.find h.1) => Nat.find_min h.1 hm
  generalize Nat.find h.1 = k at hk hmin
  refine ⟨k, ?_, hk⟩
  by_contra hkn
  have hcard : (Finset.range n).card < (Finset.range (k + 1)).card := by simp; omega
  obtain ⟨a, ha, b, hb, hab, he⟩ := Finset.exists_ne_map_eq_of_card_lt_of_maps_to hcard
    (f := fun k => f^[k] v) (fun k _ => by simpa using hlt k)
  have key : ∀ a b : Nat, a < b → b ≤ k → f^[a] v = f^[b] v → False := by
    intro a b hab hb he
    refine hmin (a + (k - b)) (by omega) ?_
    rw [Nat.add_comm, Function.iterate_add_apply, he, ← Function.iterate_add_apply]
    rw [show k - b + b = k by omega]; exact hk
  simp only [Finset.mem_range] at ha hb he
  rcases Nat.lt_or_gt_of_ne hab with h1 | h1
  · exact key a b h1 (by omega) he
  · exact key b a h1 (by omega) he.symm

/-- redirecting a reference to the root keeps all roots -/
theorem RootIs.compress {x y : Nat} (hxy : RootIs f x y) (hne : x ≠ y) {u r : Nat} (h : RootIs f u r) :
    RootIs (Function.update f x y) u r := by
  have hfix : ∀ r, f r = r → Function.update f x y r = r := by
    intro r hr
    have : r ≠ x := by
      rintro rfl
      exact hne (RootIs.unique (RootIs.self hr) hxy)
    rw [Function.update_of_ne this, hr]
  obtain ⟨⟨k, hk⟩, hr⟩ := h
  induction k generalizing u with
  | zero => subst hk; exact RootIs.self (hfix _ hr)
  | succ k ih =>
    by_cases hu : u = x
    · have : r = y := RootIs.unique (v := x) ⟨⟨k+1, hu ▸ hk⟩, hr⟩ hxy
      refine RootIs.back ?_
      rw [hu, this, Function.update_self]
      exact RootIs.self (hfix y hxy.2)
    · refine RootIs.back ?_
      rw [Function.update_of_ne hu]
      exact ih hk

theorem compress_steps {x y : Nat} {k u : Nat} (h : f^[k] u = y) : ∃ k' ≤ k, (Function.update f x y)^[k'] u = y := by
  induction k generalizing u with
  | zero => exact ⟨0, Nat.le_refl _, h⟩
  | succ k ih =>
    by_cases hu : u = x
    · exact ⟨1, by omega, by rw [hu]; simp⟩
    · obtain ⟨k', h1, h2⟩ := ih (u := f u) h
      refine ⟨k' + 1, by omega, ?_⟩
      rw [Function.iterate_succ_apply, Function.update_of_ne hu]; exact h2

/-- attaching a root to another -/
theorem RootIs.merge {i x : Nat} (hi : f i = i) (hx : f x = x) (hne : x ≠ i) {u r : Nat} (h : RootIs f u r) :
    RootIs (Function.update f i x) u (if r = i then x else r) := by
  have hx' : Function.update f i x x = x := by rw [Function.update_of_ne hne, hx]
  obtain ⟨⟨k, hk⟩, hr⟩ := h
  induction k generalizing u with
  | zero =>
    change u = r at hk
    subst hk
    by_cases h : u = i
    · rw [if_pos h, h]
      refine RootIs.back ?_
      rw [Function.update_self]; exact RootIs.self hx'
    · rw [if_neg h]
      exact RootIs.self (by rw [Function.update_of_ne h, hr])
  | succ k ih =>
    by_cases hu : u = i
    · have : r = i := RootIs.unique (v := u) ⟨⟨k+1, hk⟩, hr⟩ (by rw [hu]; exact RootIs.self hi)
      rw [if_pos this, hu]
      refine RootIs.back ?_
      rw [Function.update_self]; exact RootIs.self hx'
    · refine RootIs.back ?_
      rw [Function.update_of_ne hu]
      exact ih hk

/-! ### The references of a preorder object -/

/-- the references, as a function -/
def refOf (data : List Entry) (v : Nat) : Nat :=
  match data[v]? with
  | some e => e.ref
  | none => v

theorem refOf_of_get {data : List Entry} {v : Nat} {e : Entry} (h : data[v]? = some e) : refOf data v = e.ref := by
  rw [refOf, h]

theorem refOf_set {data : List Entry} {x : Nat} (hx : x < data.length) (e : Entry) :
    refOf (data.set x e) = Function.update (refOf data) x e.ref := by
  funext v
  by_cases hv : v = x
  · subst hv
    rw [Function.update_self, refOf_of_get (e := e)]
    rw [List.getElem?_set_self hx]
  · rw [Function.update_of_ne hv]
    unfold refOf
    rw [List.getElem?_set_ne (fun h => hv h.symm)]

theorem rootLoop_iter {data : List Entry} {k v r f : Nat} (hb : ∀ x < data.length, refOf data x < data.length)
    (hv : v < data.length) (hk : (refOf data)^[k] v = r) (hr : refOf data r = r) (hf : k < f) :
    rootLoop data f v = .ok r := by
  induction k generalizing v f with
  | zero =>
    cases f with
    | zero => omega
    | succ f =>
      change v = r at hk
      subst hk
      have hg := List.getElem?_eq_getElem hv
      rw [rootLoop, Vec.get_ok hv, Res.ok_bind]
      rw [refOf_of_get hg] at hr
      rw [if_neg (by simpa using hr)]
  | succ k ih =>
    cases f with
    | zero => omega
    | succ f =>
      have hg := List.getElem?_eq_getElem hv
      have he : refOf data v = data[v].ref := refOf_of_get hg
      rw [rootLoop, Vec.get_ok hv, Res.ok_bind]
      by_cases h : data[v].ref = v
      · rw [if_neg (by simpa using h)]
        rw [Function.iterate_succ_apply, he, h, iter_fix (by rw [he, h])] at hk
        rw [hk]
      · rw [if_pos h, ← he]
        exact ih (hb v hv) (by rw [← Function.iterate_succ_apply]; exact hk) (by omega)

theorem rootLoop_spec {data : List Entry} {v r f : Nat} (hb : ∀ x < data.length, refOf data x < data.length)
    (hv : v < data.length) (h : RootIs (refOf data) v r) (hf : data.length ≤ f) : rootLoop data f v = .ok r := by
  obtain ⟨k, h1, h2⟩ := h.bounded hb hv
  exact rootLoop_iter hb hv h2 h.2 (by omega)

/-- only the references differ -/
structure SameOut (d d' : List Entry) : Prop where
  len : d'.length = d.length
  out : ∀ (j : Nat) (e : Entry), d'[j]? = some e → ∃ e0 : Entry, d[j]? = some e0 ∧ e.out = e0.out

theorem SameOut.refl (d : List Entry) : SameOut d d := ⟨rfl, fun _ e h => ⟨e, h, rfl⟩⟩

theorem compress_spec {y : Nat} (k : Nat) {data : List Entry} {x f : Nat} (hb : ∀ x < data.length, refOf data x < data.length)
    (hx : x < data.length) (hk : (refOf data)^[k] x = y) (hy : refOf data y = y) (hyl : y < data.length) (hf : k < f) :
    ∃ data', compress y f x data = .ok data' ∧ SameOut data data' ∧
      (∀ x < data.length, refOf data' x < data.length) ∧
      ∀ u r, RootIs (refOf data) u r → RootIs (refOf data') u r := by
  induction f generalizing data x k with
  | zero => omega
  | succ f ih =>
    rw [compress]
    by_cases hxy : x = y
    · rw [if_neg (by simpa using hxy)]
      exact ⟨data, rfl, .refl _, hb, fun _ _ h => h⟩
    · rw [if_pos hxy]
      have hg := List.getElem?_eq_getElem hx
      have he : refOf data x = data[x].ref := refOf_of_get hg
      rw [Vec.get_ok hx, Res.ok_bind, Vec.put_ok hx, Res.ok_bind]
      have hroot : RootIs (refOf data) x y := ⟨⟨k, hk⟩, hy⟩
      cases k with
      | zero => exact absurd hk hxy
      | succ k =>
        have hset := refOf_set hx { data[x] with ref := y }
        obtain ⟨k', hk1, hk2⟩ := compress_steps (f := refOf data) (x := x) (y := y) (k := k) (u := refOf data x) hk
        obtain ⟨d', e', s', b', r'⟩ := ih (k := k') (data := data.set x { data[x] with ref := y }) (x := data[x].ref)
          (by
            intro v hv
            rw [List.length_set] at *
            rw [hset]
            by_cases h : v = x
            · rw [h, Function.update_self]; exact hyl
            · rw [Function.update_of_ne h]; exact hb v hv)
          (by rw [List.length_set, ← he]; exact hb x hx)
          (by rw [hset, ← he]; exact hk2)
          (by rw [hset, Function.update_of_ne (fun h => hxy h.symm)]; exact hy)
          (by rw [List.length_set]; exact hyl) (by omega)
        refine ⟨d', e', ⟨by rw [s'.len, List.length_set], fun j e hj => ?_⟩, by simpa using b', fun u r hu => ?_⟩
        · obtain ⟨e0, h0, h1⟩ := s'.out j e hj
          by_cases hjx : j = x
          · subst hjx
            rw [List.getElem?_set_self hx] at h0
            cases h0
            exact ⟨data[j], hg, h1⟩
          · rw [List.getElem?_set_ne (fun h => hjx h.symm)] at h0
            exact ⟨e0, h0, h1⟩
        · refine r' u r ?_
          rw [hset]
          exact RootIs.compress hroot hxy hu

end Verif.Pre
