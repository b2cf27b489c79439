import Verif.Part.Props
import Mathlib.Logic.Equiv.Fin.Rotate
import Mathlib.Data.Fin.VecNotation
/-
C27: `orbits` gives exactly the orbits of the generated permutation group.
-/
namespace Verif.Part
open Verif

variable {n gens : Nat}

/-- `x` can be moved to `y` by the group generated by the permutations `σ i` -/
def Moves (σ : Fin gens → Equiv.Perm (Fin n)) (x y : Fin n) : Prop :=
  ∃ g ∈ Subgroup.closure (Set.range σ), g x = y

/-- the function object `a` acts through the permutations `σ i` -/
def Acts (a : Nat → Nat → Nat) (σ : Fin gens → Equiv.Perm (Fin n)) : Prop :=
  ∀ (i : Fin gens) (x : Fin n), a i.val x.val = (σ i x).val

variable {a : Nat → Nat → Nat} {σ : Fin gens → Equiv.Perm (Fin n)}

/-- the same relation for naturals -/
def R (σ : Fin gens → Equiv.Perm (Fin n)) (x y : Nat) : Prop := ∃ (hx : x < n) (hy : y < n), Moves σ ⟨x, hx⟩ ⟨y, hy⟩

theorem R.refl {x : Nat} (hx : x < n) : R σ x x := ⟨hx, hx, 1, one_mem _, rfl⟩

theorem Acts.lt (h : Acts a σ) {i x : Nat} (hi : i < gens) (hx : x < n) : a i x < n := by
  rw [h ⟨i, hi⟩ ⟨x, hx⟩]; exact (σ ⟨i, hi⟩ ⟨x, hx⟩).2

theorem R.step (h : Acts a σ) {r x i : Nat} (hr : R σ r x) (hi : i < gens) : R σ r (a i x) := by
  obtain ⟨h1, h2, g, hg, e⟩ := hr
  refine ⟨h1, h.lt hi h2, σ ⟨i, hi⟩ * g, mul_mem (Subgroup.subset_closure ⟨_, rfl⟩) hg, ?_⟩
  rw [Equiv.Perm.mul_apply, e]
  exact Fin.ext (h ⟨i, hi⟩ ⟨x, h2⟩).symm

/-- invariant: `E` the elements whose images are still to be examined; all numbers below `m` have been classified -/
structure OInv (a : Nat → Nat → Nat) (σ : Fin gens → Equiv.Perm (Fin n)) (b : List Bool) (P : Partition) (E : Nat → Prop) (m : Nat) : Prop where
  lb : b.length = n
  lc : P.cls.length = n
  cl : ∀ z, b[z]? = some false → ∃ k r, P.cls[z]? = some k ∧ P.rep[k]? = some r ∧ r ≤ z ∧ R σ r z
  rp : ∀ k r, P.rep[k]? = some r → r < m ∧ b[r]? = some false ∧ P.cls[r]? = some k
  inc : P.rep.Pairwise (· < ·)
  closed : ∀ z, b[z]? = some false → ¬ E z → ∀ j, j < gens → b[a j z]? = some false ∧ P.cls[a j z]? = P.cls[z]?
  low : ∀ z, z < m → z < n → b[z]? = some false

variable {b : List Bool} {P : Partition} {E : Nat → Prop} {m : Nat}

theorem OInv.weaken {E' : Nat → Prop} (h : OInv a σ b P E m) (hE : ∀ z, b[z]? = some false → ¬ E' z → E z →
    ∀ j, j < gens → b[a j z]? = some false ∧ P.cls[a j z]? = P.cls[z]?) : OInv a σ b P E' m where
  lb := h.lb
  lc := h.lc
  cl := h.cl
  rp := h.rp
  inc := h.inc
  low := h.low
  closed := by
    intro z hz hn
    by_cases c : E z
    · exact hE z hz hn c
    · exact h.closed z hz c

/-- adding an image -/
theorem OInv.add (ha : Acts a σ) (h : OInv a σ b P E m) {x i c : Nat} (hx : b[x]? = some false) (hc : P.cls[x]? = some c)
    (hi : i < gens) (hy : b[a i x]? = some true) :
    OInv a σ (b.set (a i x) false) ⟨P.cls.set (a i x) c, P.rep⟩ (fun z => E z ∨ z = a i x) m ∧
      (P.cls.set (a i x) c)[x]? = some c ∧ (b.set (a i x) false)[x]? = some false ∧
      ∀ z : Nat, b[z]? = some false → (b.set (a i x) false)[z]? = some false ∧ (P.cls.set (a i x) c)[z]? = P.cls[z]? := by
  have hyn : a i x < n := by rw [← h.lb]; exact lt_of_get? hy
  have hne : ∀ z : Nat, b[z]? = some false → a i x ≠ z := by
    rintro z hz rfl; rw [hy] at hz; cases hz
  have keep : ∀ z : Nat, b[z]? = some false → (b.set (a i x) false)[z]? = some false ∧ (P.cls.set (a i x) c)[z]? = P.cls[z]? := by
    intro z hz
    exact ⟨by rw [List.getElem?_set_ne (hne z hz)]; exact hz, List.getElem?_set_ne (hne z hz)⟩
  have back : ∀ z : Nat, (b.set (a i x) false)[z]? = some false → z ≠ a i x → b[z]? = some false := by
    intro z hz hn
    rwa [List.getElem?_set_ne (Ne.symm hn)] at hz
  refine ⟨⟨by simpa using h.lb, by simpa using h.lc, ?_, ?_, h.inc, ?_, ?_⟩, by rw [(keep x hx).2, hc], (keep x hx).1, keep⟩
  · intro z hz
    by_cases e : z = a i x
    · subst e
      obtain ⟨k, r, h1, h2, h3, h4⟩ := h.cl x hx
      rw [hc] at h1; cases h1
      refine ⟨c, r, by rw [List.getElem?_set_self (by rw [h.lc]; exact hyn)], h2, ?_, h4.step ha hi⟩
      have h5 := h.rp c r h2
      by_contra hlt
      have := h.low (a i x) (by omega) hyn
      rw [hy] at this; cases this
    · have := back z hz e
      obtain ⟨k, r, h1, h2, h3, h4⟩ := h.cl z this
      exact ⟨k, r, by rw [(keep z this).2]; exact h1, h2, h3, h4⟩
  · intro k r hr
    obtain ⟨h1, h2, h3⟩ := h.rp k r hr
    exact ⟨h1, (keep r h2).1, by rw [(keep r h2).2]; exact h3⟩
  · intro z hz hE j hj
    rw [not_or] at hE
    have hz' := back z hz hE.2
    obtain ⟨h1, h2⟩ := h.closed z hz' hE.1 j hj
    exact ⟨(keep _ h1).1, by rw [(keep _ h1).2, (keep _ hz').2, h2]⟩
  · intro z hz hzn
    exact (keep z (h.low z hz hzn)).1

/-- an image already classified is in the same class -/
theorem OInv.same (ha : Acts a σ) (h : OInv a σ b P E m) {x i c : Nat} (hx : b[x]? = some false) (hc : P.cls[x]? = some c)
    (hi : i < gens) (hy : b[a i x]? = some false) (hE : ∀ z, E z → P.cls[z]? = some c) : P.cls[a i x]? = some c := by
  obtain ⟨k, r, h1, _⟩ := h.cl _ hy
  by_contra hne
  have hkc : k ≠ c := by rintro rfl; exact hne h1
  have hxn : x < n := by rw [← h.lb]; exact lt_of_get? hx
  have inv : ∀ z : Fin n, (b[z.val]? = some false ∧ P.cls[z.val]? = some k) →
      (b[(σ ⟨i, hi⟩ z).val]? = some false ∧ P.cls[(σ ⟨i, hi⟩ z).val]? = some k) := by
    rintro z ⟨z1, z2⟩
    have hz : ¬ E z.val := fun e => hkc (by rw [hE _ e] at z2; exact (Option.some.inj z2).symm)
    have := h.closed z.val z1 hz i hi
    rw [ha ⟨i, hi⟩ z] at this
    exact ⟨this.1, this.2.trans z2⟩
  have hyy : a i x = (σ ⟨i, hi⟩ ⟨x, hxn⟩).val := ha ⟨i, hi⟩ ⟨x, hxn⟩
  have := Equiv.Perm.perm_symm_on_of_perm_on_finite (f := σ ⟨i, hi⟩)
    (p := fun z : Fin n => b[z.val]? = some false ∧ P.cls[z.val]? = some k) inv
    (x := σ ⟨i, hi⟩ ⟨x, hxn⟩) ⟨by rw [← hyy]; exact hy, by rw [← hyy]; exact h1⟩
  rw [Equiv.symm_apply_apply] at this
  have := this.2
  simp only at this
  rw [hc] at this
  exact hkc (Option.some.inj this).symm

theorem count_set_lt {b : List Bool} {y : Nat} (hy : b[y]? = some true) : (b.set y false).count true + 1 = b.count true := by
  induction b generalizing y with
  | nil => simp at hy
  | cons x b ih =>
    cases y with
    | zero => simp at hy; subst hy; simp
    | succ y =>
      have := ih (y := y) (by simpa using hy)
      rw [List.set_cons_succ, List.count_cons, List.count_cons]
      omega

theorem imagesLoop_spec (ha : Acts a σ) (c x : Nat) (k i : Nat) (b : List Bool) (P : Partition) (todo : List Nat)
    (hk : i + k = gens) (h : OInv a σ b P (fun z => z = x ∨ z ∈ todo) m) (hx : b[x]? = some false) (hc : P.cls[x]? = some c)
    (htodo : ∀ z ∈ todo, b[z]? = some false ∧ P.cls[z]? = some c)
    (hdone : ∀ j, j < i → b[a j x]? = some false ∧ P.cls[a j x]? = some c) :
    ∃ b' P' todo', imagesLoop a x c k i b P todo = .ok (b', P', todo') ∧ OInv a σ b' P' (fun z => z ∈ todo') m ∧
      (∀ z ∈ todo', b'[z]? = some false ∧ P'.cls[z]? = some c) ∧ P'.rep = P.rep ∧
      b'.count true + todo'.length = b.count true + todo.length := by
  induction k generalizing i b P todo with
  | zero =>
    refine ⟨b, P, todo, rfl, h.weaken ?_, htodo, rfl, rfl⟩
    intro z hz hn hE j hj
    rcases hE with rfl | hE
    · obtain ⟨h1, h2⟩ := hdone j (by omega)
      exact ⟨h1, by rw [h2, hc]⟩
    · exact absurd hE hn
  | succ k ih =>
    have hi : i < gens := by omega
    have hxn : x < n := by rw [← h.lb]; exact lt_of_get? hx
    have hyn := ha.lt hi hxn
    rw [imagesLoop]
    have hget := Vec.get_ok (l := b) (i := a i x) (by rw [h.lb]; exact hyn)
    rw [hget, Res.ok_bind]
    cases hb : b[a i x]'(by rw [h.lb]; exact hyn) with
    | true =>
      have hy : b[a i x]? = some true := by rw [List.getElem?_eq_getElem (by rw [h.lb]; exact hyn), hb]
      rw [if_pos rfl, Vec.put_ok (by rw [h.lb]; exact hyn), Res.ok_bind, Partition.addToClass, Vec.put_ok (by rw [h.lc]; exact hyn),
        Res.ok_bind, Res.pure_eq, Res.ok_bind]
      obtain ⟨g1, g2, g3, g4⟩ := h.add ha hx hc hi hy
      have hself : (b.set (a i x) false)[a i x]? = some false ∧ (P.cls.set (a i x) c)[a i x]? = some c :=
        ⟨List.getElem?_set_self (by rw [h.lb]; exact hyn), List.getElem?_set_self (by rw [h.lc]; exact hyn)⟩
      obtain ⟨b', P', todo', k1, k2, k3, k4, k5⟩ := ih (i + 1) (b.set (a i x) false) ⟨P.cls.set (a i x) c, P.rep⟩ (a i x :: todo) (by omega)
        (g1.weaken (fun z hz hn hE => absurd (by
          rcases hE with (hE | hE) | hE
          · exact .inl hE
          · exact .inr (List.mem_cons_of_mem _ hE)
          · exact .inr (by rw [hE]; exact List.mem_cons_self)) hn)) g3 g2 (by
            intro z hz
            rcases List.mem_cons.1 hz with rfl | hz
            · exact hself
            · obtain ⟨q1, q2⟩ := htodo z hz
              exact ⟨(g4 z q1).1, by rw [(g4 z q1).2]; exact q2⟩) (by
            intro j hj
            by_cases e : j = i
            · subst e; exact hself
            · obtain ⟨q1, q2⟩ := hdone j (by omega)
              exact ⟨(g4 _ q1).1, by rw [(g4 _ q1).2]; exact q2⟩)
      refine ⟨b', P', todo', k1, k2, k3, k4, ?_⟩
      rw [k5, List.length_cons]
      have := count_set_lt hy
      omega
    | false =>
      have hy : b[a i x]? = some false := by rw [List.getElem?_eq_getElem (by rw [h.lb]; exact hyn), hb]
      rw [if_neg (by simp)]
      refine ih (i + 1) b P todo (by omega) h hx hc htodo ?_
      intro j hj
      by_cases e : j = i
      · subst e
        exact ⟨hy, h.same ha hx hc hi hy (by
          rintro z (rfl | hz)
          · exact hc
          · exact (htodo z hz).2)⟩
      · exact hdone j (by omega)

theorem orbitLoop_spec (ha : Acts a σ) (c : Nat) (k : Nat) (b : List Bool) (P : Partition) (todo : List Nat) (hne : todo ≠ [])
    (h : OInv a σ b P (fun z => z ∈ todo) m) (htodo : ∀ z ∈ todo, b[z]? = some false ∧ P.cls[z]? = some c)
    (hk : b.count true + todo.length < k) :
    ∃ b' P', orbitLoop a gens c k b P todo = .ok (b', P') ∧ OInv a σ b' P' (fun _ => False) m ∧ P'.rep = P.rep := by
  induction k generalizing b P todo with
  | zero => omega
  | succ k ih =>
    cases todo with
    | nil => exact absurd rfl hne
    | cons x todo =>
      rw [orbitLoop]
      obtain ⟨hx, hc⟩ := htodo x (by simp)
      obtain ⟨b', P', todo', k1, k2, k3, k4, k5⟩ := imagesLoop_spec ha c x gens 0 b P todo (by omega)
        (h.weaken (fun z hz hn hE => absurd (by
          rcases List.mem_cons.1 hE with e | e
          · exact .inl e
          · exact .inr e) hn)) hx hc (fun z hz => htodo z (by simp [hz])) (fun j hj => by omega)
      rw [k1, Res.ok_bind]
      simp only
      by_cases e : todo' = []
      · rw [if_pos e]
        subst e
        exact ⟨b', P', rfl, k2.weaken (fun z hz hn hE => absurd hE (by simp)), k4⟩
      · rw [if_neg e]
        obtain ⟨b2, P2, g1, g2, g3⟩ := ih b' P' todo' e k2 k3 (by rw [List.length_cons] at hk; omega)
        exact ⟨b2, P2, g1, g2, by rw [g3, k4]⟩

theorem rootsLoop_spec (ha : Acts a σ) (k root : Nat) (b : List Bool) (P : Partition) (hk : root + k = n)
    (h : OInv a σ b P (fun _ => False) root) :
    ∃ b' P', rootsLoop a gens k root b P = .ok P' ∧ OInv a σ b' P' (fun _ => False) n := by
  induction k generalizing root b P with
  | zero =>
    obtain rfl : root = n := by omega
    exact ⟨b, P, rfl, h⟩
  | succ k ih =>
    have hrn : root < n := by omega
    have hbl : root < b.length := by rw [h.lb]; exact hrn
    rw [rootsLoop, Vec.get_ok hbl, Res.ok_bind]
    cases hb : b[root] with
    | false =>
      rw [if_neg (by simp)]
      refine ih (root + 1) b P (by omega) { h with
        rp := fun k r hr => ⟨by have := (h.rp k r hr).1; omega, (h.rp k r hr).2⟩
        low := ?_ }
      intro z hz hzn
      by_cases e : z = root
      · subst e; rw [List.getElem?_eq_getElem hbl, hb]
      · exact h.low z (by omega) hzn
    | true =>
      have hbt : b[root]? = some true := by rw [List.getElem?_eq_getElem hbl, hb]
      rw [if_pos rfl, Partition.newClass, Vec.put_ok (by rw [h.lc]; exact hrn), Res.ok_bind, Res.pure_eq, Res.ok_bind, Vec.put_ok hbl, Res.ok_bind]
      simp only
      have hne : ∀ z : Nat, b[z]? = some false → root ≠ z := by
        rintro z hz rfl; rw [hbt] at hz; cases hz
      have keep : ∀ z : Nat, b[z]? = some false → (b.set root false)[z]? = some false ∧ (P.cls.set root P.rep.length)[z]? = P.cls[z]? := by
        intro z hz
        exact ⟨by rw [List.getElem?_set_ne (hne z hz)]; exact hz, List.getElem?_set_ne (hne z hz)⟩
      have hself : (b.set root false)[root]? = some false := List.getElem?_set_self hbl
      have hselfc : (P.cls.set root P.rep.length)[root]? = some P.rep.length := List.getElem?_set_self (by rw [h.lc]; exact hrn)
      have h' : OInv a σ (b.set root false) ⟨P.cls.set root P.rep.length, P.rep ++ [root]⟩ (fun z => z ∈ [root]) (root + 1) := by
        refine ⟨by simpa using h.lb, by simpa using h.lc, ?_, ?_, ?_, ?_, ?_⟩
        · intro z hz
          by_cases e : z = root
          · subst e
            exact ⟨P.rep.length, z, hselfc, by simp, le_rfl, R.refl hrn⟩
          · rw [List.getElem?_set_ne (Ne.symm e)] at hz
            obtain ⟨k, r, h1, h2, h3, h4⟩ := h.cl z hz
            exact ⟨k, r, by rw [(keep z hz).2]; exact h1, by rw [List.getElem?_append_left (lt_of_get? h2)]; exact h2, h3, h4⟩
        · intro k r hr
          rcases Nat.lt_or_ge k P.rep.length with hlt | hge
          · rw [List.getElem?_append_left hlt] at hr
            obtain ⟨h1, h2, h3⟩ := h.rp k r hr
            exact ⟨by omega, (keep r h2).1, by rw [(keep r h2).2]; exact h3⟩
          · have : k = P.rep.length := by
              have := lt_of_get? hr
              simp at this; omega
            subst this
            simp at hr
            subst hr
            exact ⟨by omega, hself, hselfc⟩
        · exact pairwise_snoc h.inc (fun y hy => by
            obtain ⟨c, hc, e⟩ := List.getElem_of_mem hy
            exact (h.rp c y (by rw [List.getElem?_eq_getElem hc, e])).1)
        · intro z hz hE j hj
          have e : z ≠ root := fun e => hE (by simp [e])
          rw [List.getElem?_set_ne (Ne.symm e)] at hz
          obtain ⟨h1, h2⟩ := h.closed z hz (by simp) j hj
          exact ⟨(keep _ h1).1, by rw [(keep _ h1).2, (keep _ hz).2, h2]⟩
        · intro z hz hzn
          by_cases e : z = root
          · subst e; exact hself
          · exact (keep z (h.low z (by omega) hzn)).1
      obtain ⟨b', P', k1, k2, k3⟩ := orbitLoop_spec ha P.rep.length ((b.set root false).length + 1) _ _ [root] (by simp) h'
        (by intro z hz; rw [List.mem_singleton] at hz; subst hz; exact ⟨hself, hselfc⟩)
        (by
          have e1 := count_set_lt hbt
          have e2 : b.count true ≤ b.length := List.count_le_length
          simp only [List.length_singleton, List.length_set]
          omega)
      rw [k1, Res.ok_bind]
      simp only
      exact ih (root + 1) b' P' (by omega) k2

/-- C27: `orbits(a,c,n)`, where `a(i,·)` are permutations of `[0,n)`, gives a partition with `x` and `y` in the same
class exactly when the generated permutation group moves `x` to `y`; classes are numbered by first occurrence, and
`classRep` is the first element of each class. -/
theorem C27_orbits (a : Nat → Nat → Nat) (σ : Fin gens → Equiv.Perm (Fin n)) (ha : Acts a σ) :
    ∃ P, orbits a gens n = .ok P ∧ Valid n P ∧ Ordered P ∧
      ∀ x y : Fin n, P.classOf x.val = P.classOf y.val ↔ Moves σ x y := by
  have h0 : OInv a σ (List.replicate n true) (Partition.sized n) (fun _ => False) 0 := by
    refine ⟨by simp, by simp [Partition.sized], ?_, ?_, List.Pairwise.nil, ?_, ?_⟩
    · intro z hz; rw [List.getElem?_replicate] at hz; split_ifs at hz; simp at hz
    · intro k r hr; simp [Partition.sized] at hr
    · intro z hz; rw [List.getElem?_replicate] at hz; split_ifs at hz; simp at hz
    · intro z hz; omega
  obtain ⟨b, P, h1, h⟩ := rootsLoop_spec ha n 0 _ _ (by omega) h0
  have hcls : ∀ z : Fin n, ∃ k r, P.cls[z.val]? = some k ∧ P.rep[k]? = some r ∧ r ≤ z.val ∧ R σ r z.val :=
    fun z => h.cl z.val (h.low z.val z.2 z.2)
  have hinv : ∀ g ∈ Subgroup.closure (Set.range σ), ∀ z : Fin n, P.cls[(g z).val]? = P.cls[z.val]? := by
    intro g hg
    induction hg using Subgroup.closure_induction with
    | mem g hg =>
      obtain ⟨i, rfl⟩ := hg
      intro z
      have := (h.closed z.val (h.low z.val z.2 z.2) (by simp) i.val i.2).2
      rwa [ha i z] at this
    | one => intro z; rfl
    | mul g g' _ _ i1 i2 => intro z; rw [Equiv.Perm.mul_apply, i1, i2]
    | inv g _ ih =>
      intro z
      have := ih (g⁻¹ z)
      rw [show g (g⁻¹ z) = z from g.apply_symm_apply z] at this
      exact this.symm
  refine ⟨P, h1, ⟨h.lc, ?_, ?_⟩, ?_, ?_⟩
  · intro i hi
    obtain ⟨k, r, e1, e2, _⟩ := hcls ⟨i, hi⟩
    exact ⟨k, classOf_iff.2 e1, lt_of_get? e2⟩
  · intro c hc
    obtain ⟨e1, e2, e3⟩ := h.rp c P.rep[c] (List.getElem?_eq_getElem hc)
    refine ⟨P.rep[c], classRep_iff.2 (List.getElem?_eq_getElem hc), classOf_iff.2 e3, ?_⟩
    intro i hi e
    rw [classOf_iff] at e
    obtain ⟨k, r, f1, f2, f3, _⟩ := hcls ⟨i, by omega⟩
    simp only at f1 f3
    rw [e] at f1; cases f1
    rw [List.getElem?_eq_getElem hc] at f2
    cases f2
    omega
  · intro c d i j hcd hi hj
    rw [classRep_iff] at hi hj
    obtain ⟨q1, rfl⟩ := List.getElem?_eq_some_iff.1 hi
    obtain ⟨q2, rfl⟩ := List.getElem?_eq_some_iff.1 hj
    exact List.pairwise_iff_getElem.1 h.inc c d q1 q2 hcd
  · intro x y
    obtain ⟨k, r, a1, a2, _, a4⟩ := hcls x
    obtain ⟨l, s, b1, b2, _, b4⟩ := hcls y
    constructor
    · intro e
      rw [classOf_iff.2 a1, classOf_iff.2 b1] at e
      have : k = l := by injection e
      subst this
      rw [a2] at b2; cases b2
      obtain ⟨hr, hx, g, hg, eg⟩ := a4
      obtain ⟨_, hy, g', hg', eg'⟩ := b4
      refine ⟨g' * g⁻¹, mul_mem hg' (inv_mem hg), ?_⟩
      have : g⁻¹ x = ⟨r, hr⟩ := (Equiv.symm_apply_eq g).2 eg.symm
      rw [Equiv.Perm.mul_apply, this, eg']
    · rintro ⟨g, hg, rfl⟩
      have := hinv g hg x
      rw [a1] at this
      rw [classOf_iff.2 a1, classOf_iff.2 this]

-- two generators, acting as `(0 2)(3 4)` and as `(3 5)`
example : orbits (fun i x => if i = 0 then [2, 1, 0, 4, 3, 5].getD x 0 else [0, 1, 2, 5, 4, 3].getD x 0) 2 6 =
    .ok ⟨[0, 1, 0, 2, 2, 2], [0, 1, 3]⟩ := by decide

-- the hypothesis `Acts` is met
example : Acts (fun i x => if i = 0 then [1, 2, 0].getD x 0 else x) (![finRotate 3, 1] : Fin 2 → Equiv.Perm (Fin 3)) := by
  unfold Acts; decide

end Verif.Part
